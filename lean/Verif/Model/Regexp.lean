import Verif.Model.Websocket
/-!
# Regular expressions (Go's package `regexp`, as used by `delivery/producer.go:31-35,71,90,116` and `delivery/consumer.go:344-349`)

The package is the Go standard library's and is not part of the repository; `compile` in `Model/Producer.lean` and `tracked` in
`Model/Consumer.lean` leave it open. This file models the part of it that schemas and tracked prefixes are written in:
literals, escaped punctuation, `.`, character classes, `^`, `$`, groups, alternation and the operators `*`, `+`, `?` with
their lazy forms, with leftmost-first semantics (`regexp/syntax/parse.go`, flags `Perl`).

Not modelled (`RxErr.outside`): counted repetition `{n,m}`, escapes of letters and digits (`\d`, `\pL`, `\Q`, …), flags and
named groups `(?…)` other than `(?:`, named classes `[[:alpha:]]`, non-ASCII bytes in the expression, repetition with `*` or
`+` of something that matches the empty string, expressions beyond the size limits of the package.
-/
namespace Verif

/-- A parsed expression. A `plus` is `cat a (star a)`. -/
inductive Re where
  | empty
  | byte (b : UInt8)
  | cls (neg : Bool) (ranges : List (UInt8 × UInt8))
  | any
  | bol
  | eol
  | cat (a b : Re)
  | alt (a b : Re)
  | star (greedy : Bool) (a : Re)
  | quest (greedy : Bool) (a : Re)
  deriving DecidableEq, Repr

/-- The width of the first character: that of `utf8.DecodeRune`, which is 1 for a byte that begins no character. -/
def runeWidth (s : Bytes) : Nat := (utf8Size s).getD 1

/-- What is left after one character. ASCII is decided by `p`, everything else by `wide`. -/
def takeRune (p : UInt8 → Bool) (wide : Bool) (s : Bytes) : List Bytes :=
  match s with
  | [] => []
  | b :: r => if b < 0x80 then (if p b then [r] else []) else if wide then [s.drop (runeWidth s)] else []

/-- Is the character in one of the ranges? -/
def inRanges (ranges : List (UInt8 × UInt8)) (b : UInt8) : Bool := ranges.any (fun p => p.1 ≤ b && b ≤ p.2)

/-- The repetitions of something, the most (or the fewest) first. An iteration that consumes nothing ends the loop. -/
def starEnds (f : Bool → Bytes → List Bytes) (greedy : Bool) : Nat → Bool → Bytes → List Bytes
  | 0, _, s => [s]
  | n + 1, st, s =>
    let more := (f st s).flatMap (fun r => if r.length < s.length then starEnds f greedy n false r else [])
    if greedy then more ++ [s] else s :: more

/-- What may be left of `s` after matching a beginning of it, in order of preference (that of a backtracking search).
`st` says that `s` is the whole text, so that `^` matches. -/
def Re.ends : Re → Bool → Bytes → List Bytes
  | .empty, _, s => [s]
  | .byte b, _, s => match s with
    | [] => []
    | c :: r => if c = b then [r] else []
  | .cls neg ranges, _, s => takeRune (fun b => inRanges ranges b != neg) neg s
  | .any, _, s => takeRune (fun b => b != 10) true s
  | .bol, st, s => if st then [s] else []
  | .eol, _, s => if s = [] then [s] else []
  | .cat a b, st, s => (a.ends st s).flatMap (fun r => b.ends (st && r.length == s.length) r)
  | .alt a b, st, s => a.ends st s ++ b.ends st s
  | .star g a, st, s => starEnds a.ends g s.length st s
  | .quest g a, st, s => if g then a.ends st s ++ [s] else s :: a.ends st s

/-- The search for the leftmost match: at this position, else at the next character. -/
def Re.findFrom (re : Re) : Nat → Bool → Bytes → Option Bytes
  | 0, st, s => (re.ends st s).head?.map (fun r => s.take (s.length - r.length))
  | n + 1, st, s =>
    match re.ends st s with
    | r :: _ => some (s.take (s.length - r.length))
    | [] => if s = [] then none else re.findFrom n false (s.drop (runeWidth s))

/-- `(*Regexp).FindString`: the match, the empty string if there is none. -/
def Re.findString (re : Re) (k : GoStr) : GoStr := (re.findFrom k.length true k).getD []

/-- `(*Regexp).MatchString`. -/
def Re.matchString (re : Re) (k : GoStr) : Bool := (re.findFrom k.length true k).isSome

/-! ## Parsing -/

/-- Why there is no expression: Go rejects the text, or it is not modelled. -/
inductive RxErr where
  | bad
  | outside
  deriving DecidableEq, Repr

/-- Can the expression match the empty string somewhere? (`^` and `$` can.) -/
def Re.nullable : Re → Bool
  | .empty | .bol | .eol | .star _ _ | .quest _ _ => true
  | .byte _ | .cls _ _ | .any => false
  | .cat a b => a.nullable && b.nullable
  | .alt a b => a.nullable || b.nullable

/-- A letter or a digit: escaping one of those gives something else than the character. -/
def isAlnum (b : UInt8) : Bool := (48 ≤ b && b ≤ 57) || (65 ≤ b && b ≤ 90) || (97 ≤ b && b ≤ 122)

/-- One of the operators `*`, `+`, `?`. -/
def isRepOp (b : UInt8) : Bool := b == 42 || b == 43 || b == 63

/-- `*`, `+` or `?` applied to an expression. -/
def mkRep (op : UInt8) (greedy : Bool) (a : Re) : Re :=
  if op = 42 then .star greedy a else if op = 43 then .cat a (.star greedy a) else .quest greedy a

/-- The `?` that makes an operator lazy: is it greedy, and what follows. -/
def lazyMark (r : Bytes) : Bool × Bytes := if r.head? = some 63 then (false, r.tail) else (true, r)

/-- The operator after an operand: none, or one with an optional `?` for the lazy form. Two operators in a row are an error
(`ErrInvalidRepeatOp`). -/
def parseRep (a : Re) (s : Bytes) : Except RxErr (Re × Bytes) :=
  match s with
  | [] => .ok (a, [])
  | op :: r =>
    if op = 123 then .error .outside
    else if !isRepOp op then .ok (a, s)
    else if op ≠ 63 && a.nullable then .error .outside
    else
      match (lazyMark r).2 with
      | [] => .ok (mkRep op (lazyMark r).1 a, [])
      | c :: _ =>
        if isRepOp c then .error .bad else if c = 123 then .error .outside
        else .ok (mkRep op (lazyMark r).1 a, (lazyMark r).2)

/-- A character of a class, escaped or not. -/
def parseClassChar : Bytes → Except RxErr (UInt8 × Bytes)
  | [] => .error .bad
  | [92] => .error .bad
  | 92 :: c :: r => if isAlnum c || 128 ≤ c then .error .outside else .ok (c, r)
  | c :: r => if 128 ≤ c then .error .outside else .ok (c, r)

/-- The inside of a class up to `]`. `first`: a `]` that comes first is an ordinary character. -/
def parseClass : Nat → Bool → List (UInt8 × UInt8) → Bytes → Except RxErr (List (UInt8 × UInt8) × Bytes)
  | 0, _, _, _ => .error .bad
  | n + 1, first, acc, s =>
    match s with
    | [] => .error .bad
    | 91 :: 58 :: _ => .error .outside
    | c :: r =>
      if c = 93 && !first then .ok (acc, r)
      else match parseClassChar s with
        | .error e => .error e
        | .ok (lo, r1) =>
          match r1 with
          | 45 :: d :: r2 =>
            if d = 93 then parseClass n false (acc ++ [(lo, lo)]) r1
            else match parseClassChar (d :: r2) with
              | .error e => .error e
              | .ok (hi, r3) => if hi < lo then .error .bad else parseClass n false (acc ++ [(lo, hi)]) r3
          | _ => parseClass n false (acc ++ [(lo, lo)]) r1

/-- An operand that is not a group. The bytes `(`, `)`, `|` do not get here. -/
def parseAtom : Bytes → Except RxErr (Re × Bytes)
  | [] => .error .bad
  | 42 :: _ => .error .bad
  | 43 :: _ => .error .bad
  | 63 :: _ => .error .bad
  | 123 :: _ => .error .outside
  | 94 :: r => .ok (.bol, r)
  | 36 :: r => .ok (.eol, r)
  | 46 :: r => .ok (.any, r)
  | [92] => .error .bad
  | 92 :: c :: r => if isAlnum c || 128 ≤ c then .error .outside else .ok (.byte c, r)
  | 91 :: 94 :: r => (parseClass (r.length + 1) true [] r).map (fun p => (.cls true p.1, p.2))
  | 91 :: r => (parseClass (r.length + 1) true [] r).map (fun p => (.cls false p.1, p.2))
  | c :: r => if 128 ≤ c then .error .outside else .ok (.byte c, r)

/-- What has been read of a group: the finished alternatives and the operands of the current one, the last first. -/
structure RxFrame where
  alts : List Re
  cur : List Re
  deriving DecidableEq, Repr

/-- The concatenation of operands, the last first. -/
def mkCat : List Re → Re
  | [] => .empty
  | a :: l => l.foldl (fun acc x => .cat x acc) a

/-- The alternation, the last first. -/
def mkAlt (a : Re) (l : List Re) : Re := l.foldl (fun acc x => .alt x acc) a

/-- The group is finished. -/
def RxFrame.close (f : RxFrame) : Re := mkAlt (mkCat f.cur) f.alts

/-- The parser: a stack of open groups, as in `regexp/syntax/parse.go` (there the stack is flat, with markers). -/
def parseLoop : Nat → List RxFrame → RxFrame → Bytes → Except RxErr Re
  | _, stack, top, [] => if stack = [] then .ok top.close else .error .bad
  | 0, _, _, _ :: _ => .error .bad
  | n + 1, stack, top, c :: r =>
    if c = 40 then
      if r.head? = some 63 then
        if r.tail.head? = some 58 then parseLoop n (top :: stack) ⟨[], []⟩ r.tail.tail else .error .outside
      else parseLoop n (top :: stack) ⟨[], []⟩ r
    else if c = 41 then
      match stack with
      | [] => .error .bad
      | f :: stack' =>
        match parseRep top.close r with
        | .error e => .error e
        | .ok p => parseLoop n stack' { f with cur := p.1 :: f.cur } p.2
    else if c = 124 then parseLoop n stack ⟨mkCat top.cur :: top.alts, []⟩ r
    else
      match parseAtom (c :: r) with
      | .error e => .error e
      | .ok q =>
        match parseRep q.1 q.2 with
        | .error e => .error e
        | .ok p => parseLoop n stack { top with cur := p.1 :: top.cur } p.2

/-- The expression of a text. -/
def parseRe (s : GoStr) : Except RxErr Re := parseLoop s.length [] ⟨[], []⟩ s

/-- `regexp.Compile` as far as a producer is concerned: the expression is used with `FindString`. -/
def goCompile (s : GoStr) : Option (GoStr → GoStr) :=
  match parseRe s with
  | .ok re => some re.findString
  | .error _ => none

/-- The loop over `mp.trackedPrefixes`, `delivery/consumer.go:343-349`. -/
def trackedBy (res : List Re) (k : GoStr) : Bool := res.any (fun re => re.matchString k)

end Verif
