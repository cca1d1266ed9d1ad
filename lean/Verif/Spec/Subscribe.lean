import Verif.Spec.Message
import Verif.Model.Subscribe
/-!
# What the answer to a subscription request is
-/
namespace Verif.Spec

/-- The last member of that name has that value. -/
def Last (l : List (GoStr × Json)) (name : String) (j : Json) : Prop :=
  ∃ a key b, l = a ++ (key, j) :: b ∧ Spelled key (str name) ∧ ∀ e ∈ b, ¬ Spelled e.1 (str name)

/-- A subscription id: `0x` or `0X` and at most 16 digits, of which the first is not zero unless it is the only one. -/
def SubId (k : GoStr) (n : Nat) : Prop :=
  ∃ p ds, k = p ++ ds ∧ Prefix p ∧ ds ≠ [] ∧ ds.length ≤ 16 ∧ (ds.head? = some 0x30 → ds.length = 1) ∧ HexNat ds n

/-- A value that is neither an array nor an object. -/
def Plain : Json → Prop
  | .arr _ => False
  | .obj _ => False
  | _ => True

/-- An object is an answer to the call with that id, granting the subscription `n`. -/
structure Answer (lib : AnswerLib) (id : Json) (l : List (GoStr × Json)) (n : Nat) : Prop where
  id : Last l "id" id
  result : ∃ raw k, Last l "result" (.str raw) ∧ StringText True raw k ∧ SubId k n
  version : ∀ e ∈ l, Spelled e.1 (str "jsonrpc") → e.2 = .null ∨ ∃ raw, e.2 = .str raw
  results : ∀ e ∈ l, Spelled e.1 (str "result") → (∃ raw, e.2 = .str raw) ∨ lib.result e.2 = true
  error : ∀ e ∈ l, Spelled e.1 (str "error") → lib.error e.2 = true

/-- A message is such an answer. -/
def IsAnswer (lib : AnswerLib) (id : Json) (m : Bytes) (n : Nat) : Prop := ∃ l, JsonText True m (.obj l) ∧ Answer lib id l n

end Verif.Spec
