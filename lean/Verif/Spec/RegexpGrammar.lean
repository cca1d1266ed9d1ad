import Verif.Model.Regexp
/-!
The grammar of regular expressions (`regexp/syntax/doc.go`, the part of it that `Model/Regexp.lean` models), stated without a
parser: which texts say which expression.
-/
namespace Verif.Spec

/-- A letter or a digit. -/
def LetterOrDigit (b : UInt8) : Prop := (48 ≤ b ∧ b ≤ 57) ∨ (65 ≤ b ∧ b ≤ 90) ∨ (97 ≤ b ∧ b ≤ 122)

/-- A character after a backslash that stands for itself. -/
def Escapable (b : UInt8) : Prop := b < 128 ∧ ¬ LetterOrDigit b

/-- A character of a class. -/
inductive ClassChar : Bytes → UInt8 → Prop
  | plain {b} (h : b < 128) (hb : b ≠ 92) : ClassChar [b] b
  | escaped {b} (h : Escapable b) : ClassChar [92, b] b

/-- The inside of a class with the `]` at its end. `first`: nothing has been read, a `]` is then a character of the class. A `-` is
a character of the class if it cannot be the middle of a range. -/
inductive ClassItems : Bool → Bytes → List (UInt8 × UInt8) → Prop
  | close : ClassItems false [93] []
  | one {first s c t l} (hs : ClassChar s c) (h1 : first = true ∨ s ≠ [93]) (h2 : ∀ d t', t = 45 :: d :: t' → d = 93)
      (h3 : s = [91] → t.head? ≠ some 58) (h : ClassItems false t l) : ClassItems first (s ++ t) ((c, c) :: l)
  | range {first s lo s' hi t l} (hs : ClassChar s lo) (h1 : first = true ∨ s ≠ [93]) (hs' : ClassChar s' hi) (h2 : s' ≠ [93])
      (hle : lo ≤ hi) (h : ClassItems false t l) : ClassItems first (s ++ 45 :: (s' ++ t)) ((lo, hi) :: l)

/-- The levels of the grammar, from the loosest binding to the tightest. -/
inductive Level where
  | alternation
  | sequence
  | repetition
  | atom

/-- The characters that mean something else than themselves: `( ) | * + ? { ^ $ . [ \`. -/
def Special (b : UInt8) : Prop := b ∈ str "()|*+?{^$.[\\"

/-- The mark of a lazy operator. -/
def lazyText (greedy : Bool) : Bytes := if greedy then [] else str "?"

/-- The text says the expression. -/
inductive ReSays : Level → Bytes → Re → Prop
  | last {s a} (h : ReSays .sequence s a) : ReSays .alternation s a
  | bar {s a t b} (h : ReSays .sequence s a) (h' : ReSays .alternation t b) : ReSays .alternation (s ++ str "|" ++ t) (.alt a b)
  | nothing : ReSays .sequence [] .empty
  | single {s a} (h : ReSays .repetition s a) : ReSays .sequence s a
  | andThen {s a t b} (h : ReSays .repetition s a) (ht : t ≠ []) (h' : ReSays .sequence t b) : ReSays .sequence (s ++ t) (.cat a b)
  | once {s a} (h : ReSays .atom s a) : ReSays .repetition s a
  | star {s a} (g : Bool) (h : ReSays .atom s a) (ha : a.nullable = false) : ReSays .repetition (s ++ str "*" ++ lazyText g) (.star g a)
  | plus {s a} (g : Bool) (h : ReSays .atom s a) (ha : a.nullable = false) :
      ReSays .repetition (s ++ str "+" ++ lazyText g) (.cat a (.star g a))
  | quest {s a} (g : Bool) (h : ReSays .atom s a) : ReSays .repetition (s ++ str "?" ++ lazyText g) (.quest g a)
  | group {s a} (h : ReSays .alternation s a) : ReSays .atom (str "(" ++ s ++ str ")") a
  | group' {s a} (h : ReSays .alternation s a) : ReSays .atom (str "(?:" ++ s ++ str ")") a
  | char {b} (h : b < 128) (hb : ¬ Special b) : ReSays .atom [b] (.byte b)
  | escaped {b} (h : Escapable b) : ReSays .atom [92, b] (.byte b)
  | bol : ReSays .atom (str "^") .bol
  | eol : ReSays .atom (str "$") .eol
  | any : ReSays .atom (str ".") .any
  | cls {t l} (h : ClassItems true t l) (ht : t.head? ≠ some 94) : ReSays .atom (str "[" ++ t) (.cls false l)
  | ncls {t l} (h : ClassItems true t l) : ReSays .atom (str "[^" ++ t) (.cls true l)

end Verif.Spec
