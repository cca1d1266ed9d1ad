import Verif.Model.Types
import Verif.Spec.Path
/-! Which messages a consumer can be expected to digest, read off the wire format (`delivery/types.go:94-104`). -/
namespace Verif.Spec

/-- Bytes 1..32 of a key: the block. -/
def blockOf (key : Bytes) : Hash := bytesToHash ((key.drop 1).take 32)

/-- `n block batch` is the number of messages announced for a sub-batch. A message is well formed if its key is long enough for
its type, a sub-batch header announces that number, a sub-batch index is below it, and paths are relative. -/
structure WellFormedMsg (C : Codec) (n : Hash → Hash → Nat) (m : RMsg) : Prop where
  len : 33 ≤ m.key.length
  subLen : m.key.head? = some 2 → 65 ≤ m.key.length
  subIdx : m.key.head? = some 2 → ∀ i, C.decInt (m.key.drop 65) = some i →
    0 ≤ i ∧ i < n (blockOf m.key) (bytesToHash ((m.key.drop 33).take 32))
  header : m.key.head? = some 1 → ∀ c, C.decInt m.value = some c →
    c = n (blockOf m.key) (bytesToHash (m.key.drop 33))
  path : m.key.head? = some 3 ∨ m.key.head? = some 4 → Relative (m.key.drop 33)

end Verif.Spec
