import Verif.Model.Regexp
/-! What an expression matches, stated without a search. -/
namespace Verif.Spec

/-- `x` is the first character of `x ++ r`, and not an ASCII one (it may be a byte that begins no character). -/
def WideChar (x r : Bytes) : Prop := (∃ b t, x = b :: t ∧ 128 ≤ b) ∧ x.length = runeWidth (x ++ r)

/-- `re` matches `x` where it is followed by `r`; `st` says that it is at the start of the text. -/
inductive Matches : Re → Bool → Bytes → Bytes → Prop
  | empty {st r} : Matches .empty st [] r
  | byte {b st r} : Matches (.byte b) st [b] r
  | cls {neg ranges st c r} (hc : c < 128) (h : (∃ p ∈ ranges, p.1 ≤ c ∧ c ≤ p.2) ↔ neg = false) :
      Matches (.cls neg ranges) st [c] r
  | clsWide {ranges st x r} (h : WideChar x r) : Matches (.cls true ranges) st x r
  | any {st c r} (hc : c < 128) (h : c ≠ 10) : Matches .any st [c] r
  | anyWide {st x r} (h : WideChar x r) : Matches .any st x r
  | bol {r} : Matches .bol true [] r
  | eol {st} : Matches .eol st [] []
  | cat {a b st x y r} (h1 : Matches a st x (y ++ r)) (h2 : Matches b (st && x.isEmpty) y r) : Matches (.cat a b) st (x ++ y) r
  | altL {a b st x r} (h : Matches a st x r) : Matches (.alt a b) st x r
  | altR {a b st x r} (h : Matches b st x r) : Matches (.alt a b) st x r
  | starNil {g a st r} : Matches (.star g a) st [] r
  | starCons {g a st x y r} (h1 : Matches a st x (y ++ r)) (h2 : Matches (.star g a) (st && x.isEmpty) y r) :
      Matches (.star g a) st (x ++ y) r
  | questNil {g a st r} : Matches (.quest g a) st [] r
  | questSome {g a st x r} (h : Matches a st x r) : Matches (.quest g a) st x r

/-- `l` is made of whole characters of `l ++ s`. -/
inductive WholeChars : Bytes → Bytes → Prop
  | nil {s} : WholeChars [] s
  | cons {x l s} (hx : x ≠ []) (h : x.length = runeWidth (x ++ (l ++ s))) (hl : WholeChars l s) : WholeChars (x ++ l) s

/-- `x` is a match of `re` in `k`, beginning after `l`. -/
def MatchAt (re : Re) (k l x r : Bytes) : Prop := k = l ++ (x ++ r) ∧ WholeChars l (x ++ r) ∧ Matches re l.isEmpty x r

/-- An expression for directories: it matches at the start of the text only, up to a slash, and all its matches are at the same
depth. -/
structure DirPattern (re : Re) : Prop where
  rooted : ∀ {st x r}, Matches re st x r → st = true
  slash : ∀ {st x r}, Matches re st x r → ∃ y, x = y ++ [47]
  depth : ∃ n, ∀ {st x r}, Matches re st x r → x.count 47 = n

/-- No match of one begins with a match of the other. -/
def Apart (re re' : Re) : Prop := ∀ {st x r st' x' r'}, Matches re st x r → Matches re' st' x' r' → ¬ x <+: x' ∧ ¬ x' <+: x

/-! Checks of the text of an expression that suffice for that. -/

/-- Every match is at the start of the text. -/
def rootedCheck : Re → Bool
  | .bol => true
  | .cat a _ => rootedCheck a
  | .alt a b => rootedCheck a && rootedCheck b
  | _ => false

/-- Every match ends in a slash. -/
def slashCheck : Re → Bool
  | .byte b => b == 47
  | .cat _ b => slashCheck b
  | .alt a b => slashCheck a && slashCheck b
  | _ => false

/-- The number of slashes in every match, if that is clear. -/
def slashCount : Re → Option Nat
  | .empty | .bol | .eol => some 0
  | .byte b => some (if b = 47 then 1 else 0)
  | .cls neg ranges => if inRanges ranges 47 = neg then some 0 else none
  | .any => none
  | .cat a b => match slashCount a, slashCount b with
    | some n, some m => some (n + m)
    | _, _ => none
  | .alt a b => match slashCount a, slashCount b with
    | some n, some m => if n = m then some n else none
    | _, _ => none
  | .star _ a | .quest _ a => if slashCount a = some 0 then some 0 else none

/-- The one text the expression matches, if it is a literal (`^` aside). -/
def literalOf : Re → Option Bytes
  | .empty | .bol => some []
  | .byte b => some [b]
  | .cat a b => match literalOf a, literalOf b with
    | some x, some y => some (x ++ y)
    | _, _ => none
  | _ => none

/-- What every match begins with. -/
def leadOf : Re → Bytes
  | .byte b => [b]
  | .cat a b => match literalOf a with
    | some x => x ++ leadOf b
    | none => leadOf a
  | _ => []

/-- All three. -/
def dirCheck (re : Re) : Bool := rootedCheck re && slashCheck re && (slashCount re).isSome

/-- Every two of the expressions begin differently. -/
def apartCheck (re re' : Re) : Bool := !(leadOf re).isPrefixOf (leadOf re') && !(leadOf re').isPrefixOf (leadOf re)

end Verif.Spec
