import Verif.Model.JsonText
/-!
# JSON texts (RFC 8259), and what `encoding/json` makes of texts that are not quite JSON

The rules of the standard over bytes. `Json` keeps string literals as they stand between their quotes, and decodes the names of members.
-/
namespace Verif.Spec

/-- Section 2: white space. -/
def Blank (s : Bytes) : Prop := ∀ c ∈ s, c = 0x20 ∨ c = 0x09 ∨ c = 0x0A ∨ c = 0x0D

/-- `DIGIT`. -/
def Digit (c : UInt8) : Prop := 0x30 ≤ c ∧ c ≤ 0x39

/-- `1*DIGIT`. -/
def Digits (s : Bytes) : Prop := s ≠ [] ∧ ∀ c ∈ s, Digit c

/-- Section 6, `int`: zero, or digits of which the first is not zero. -/
def IntText (s : Bytes) : Prop := s = [0x30] ∨ Digits s ∧ s.head? ≠ some 0x30

/-- Section 6, `[ frac ]`. -/
def FracText (s : Bytes) : Prop := s = [] ∨ ∃ ds, Digits ds ∧ s = 0x2E :: ds

/-- Section 6, `[ exp ]`. -/
def ExpText (s : Bytes) : Prop :=
  s = [] ∨ ∃ e sign ds, (e = 0x65 ∨ e = 0x45) ∧ (sign = [] ∨ sign = [0x2B] ∨ sign = [0x2D]) ∧ Digits ds ∧ s = e :: (sign ++ ds)

/-- Section 6: `number = [ minus ] int [ frac ] [ exp ]`. -/
def NumberText (s : Bytes) : Prop :=
  ∃ sign int frac exp, (sign = [] ∨ sign = [0x2D]) ∧ IntText int ∧ FracText frac ∧ ExpText exp ∧ s = sign ++ int ++ frac ++ exp

/-- The value of a hexadecimal digit, upper or lower case. -/
inductive HexDigit : UInt8 → Nat → Prop
  | dec {n : Nat} : n < 10 → HexDigit (UInt8.ofNat (0x30 + n)) n
  | low {n : Nat} : n < 6 → HexDigit (UInt8.ofNat (0x61 + n)) (10 + n)
  | high {n : Nat} : n < 6 → HexDigit (UInt8.ofNat (0x41 + n)) (10 + n)

/-- `\uXXXX` and its number. -/
def Unicode (s : Bytes) (v : Nat) : Prop :=
  ∃ a b c d a' b' c' d', HexDigit a a' ∧ HexDigit b b' ∧ HexDigit c c' ∧ HexDigit d d' ∧
    s = [0x5C, 0x75, a, b, c, d] ∧ v = ((a' * 16 + b') * 16 + c') * 16 + d'

/-- Section 7: the escapes of two characters, and what they stand for. -/
def shortEscapes : List (UInt8 × UInt8) :=
  [(0x22, 0x22), (0x5C, 0x5C), (0x2F, 0x2F), (0x62, 0x08), (0x66, 0x0C), (0x6E, 0x0A), (0x72, 0x0D), (0x74, 0x09)]

/-- Section 7: the text between the quotes of a string literal, and the string it stands for, in UTF-8. If `lenient`, bytes that are not
UTF-8 and surrogates that do not pair up are allowed and stand for U+FFFD, as `encoding/json` has it. -/
inductive StringText (lenient : Prop) : Bytes → GoStr → Prop
  | nil : StringText lenient [] []
  | char {c : Char} {t r : Bytes} : 0x20 ≤ c.toNat → c.toNat ≠ 0x22 → c.toNat ≠ 0x5C → StringText lenient t r →
      StringText lenient (String.utf8EncodeChar c ++ t) (String.utf8EncodeChar c ++ r)
  | short {e v : UInt8} {t r : Bytes} : (e, v) ∈ shortEscapes → StringText lenient t r → StringText lenient (0x5C :: e :: t) (v :: r)
  | code {u : Bytes} {c : Char} {t r : Bytes} : Unicode u c.toNat → StringText lenient t r →
      StringText lenient (u ++ t) (String.utf8EncodeChar c ++ r)
  | pair {u v : Bytes} {hi lo : Nat} {c : Char} {t r : Bytes} : Unicode u (0xD800 + hi) → Unicode v (0xDC00 + lo) → hi < 0x400 → lo < 0x400 →
      c.toNat = 0x10000 + hi * 0x400 + lo → StringText lenient t r → StringText lenient (u ++ v ++ t) (String.utf8EncodeChar c ++ r)
  | byte {b : UInt8} {t r : Bytes} : lenient → 0x80 ≤ b → (∀ c : Char, ¬ String.utf8EncodeChar c <+: b :: t) → StringText lenient t r →
      StringText lenient (b :: t) (String.utf8EncodeChar (Char.ofNat 0xFFFD) ++ r)
  | lone {u : Bytes} {v : Nat} {t r : Bytes} : lenient → Unicode u v → 0xD800 ≤ v → v < 0xE000 →
      (v < 0xDC00 → ∀ u' w, Unicode u' w → 0xDC00 ≤ w → w < 0xE000 → ¬ u' <+: t) → StringText lenient t r →
      StringText lenient (u ++ t) (String.utf8EncodeChar (Char.ofNat 0xFFFD) ++ r)

mutual
/-- Section 3: a value without white space around it. -/
inductive ValueText (lenient : Prop) : Bytes → Json → Prop
  | null : ValueText lenient (str "null") .null
  | yes : ValueText lenient (str "true") (.bool true)
  | no : ValueText lenient (str "false") (.bool false)
  | num {s : Bytes} : NumberText s → ValueText lenient s (.num s)
  | str {raw : Bytes} {k : GoStr} : StringText lenient raw k → ValueText lenient (str "\"" ++ raw ++ str "\"") (.str raw)
  | arr {s : Bytes} {l : List Json} : ElemsText lenient s l → ValueText lenient (str "[" ++ s ++ str "]") (.arr l)
  | noElems {w : Bytes} : Blank w → ValueText lenient (str "[" ++ w ++ str "]") (.arr [])
  | obj {s : Bytes} {l : List (GoStr × Json)} : MembersText lenient s l → ValueText lenient (str "{" ++ s ++ str "}") (.obj l)
  | noMembers {w : Bytes} : Blank w → ValueText lenient (str "{" ++ w ++ str "}") (.obj [])
/-- Section 5: elements separated by commas. -/
inductive ElemsText (lenient : Prop) : Bytes → List Json → Prop
  | one {w t w' : Bytes} {j : Json} : Blank w → ValueText lenient t j → Blank w' → ElemsText lenient (w ++ t ++ w') [j]
  | more {w t w' s : Bytes} {j : Json} {l : List Json} : Blank w → ValueText lenient t j → Blank w' → ElemsText lenient s l →
      ElemsText lenient (w ++ t ++ w' ++ str "," ++ s) (j :: l)
/-- Section 4: members separated by commas. -/
inductive MembersText (lenient : Prop) : Bytes → List (GoStr × Json) → Prop
  | one {w raw w' w'' t w''' : Bytes} {k : GoStr} {j : Json} : Blank w → StringText lenient raw k → Blank w' → Blank w'' → ValueText lenient t j → Blank w''' →
      MembersText lenient (w ++ str "\"" ++ raw ++ str "\"" ++ w' ++ str ":" ++ w'' ++ t ++ w''') [(k, j)]
  | more {w raw w' w'' t w''' s : Bytes} {k : GoStr} {j : Json} {l : List (GoStr × Json)} : Blank w → StringText lenient raw k → Blank w' → Blank w'' →
      ValueText lenient t j → Blank w''' → MembersText lenient s l →
      MembersText lenient (w ++ str "\"" ++ raw ++ str "\"" ++ w' ++ str ":" ++ w'' ++ t ++ w''' ++ str "," ++ s) ((k, j) :: l)
end

/-- Section 2: a JSON text. -/
def JsonText (lenient : Prop) (s : Bytes) (j : Json) : Prop := ∃ w t w', Blank w ∧ ValueText lenient t j ∧ Blank w' ∧ s = w ++ t ++ w'

end Verif.Spec
