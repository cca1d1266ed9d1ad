import Verif.Model.Producer
import Verif.Spec.Wire
/-! What the producer is supposed to put on the wire. -/
namespace Verif

/-- An `AddBlock` call's arguments (`delivery/producer.go:56`). -/
structure BlockArgs where
  number : Int
  hash : Hash
  parentHash : Hash
  weight : Int
  updates : GMap GoStr Bytes
  deletes : GMap GoStr Unit
  batches : GMap GoStr Hash

/-- `AddBlock` on bundled arguments. -/
def addBlock' (C : Codec) (o : MapOrder) (p : Producer) (a : BlockArgs) :=
  addBlock C o p a.number a.hash a.parentHash a.weight a.updates a.deletes a.batches

namespace Spec

/-- `k` is matched by the schema: the first entry whose expression matches `k` (non-empty match `pre`) names `topic`. -/
def Routes (schema : List RegexpPair) (k pre topic : GoStr) : Prop :=
  ∃ before r after, schema = before ++ r :: after ∧ (∀ x ∈ before, x.find k = []) ∧
    r.find k = pre ∧ pre ≠ [] ∧ r.topic = topic

/-- No schema entry matches `k`. -/
def Unrouted (schema : List RegexpPair) (k : GoStr) : Prop := ∀ r ∈ schema, r.find k = []

instance (schema : List RegexpPair) (k : GoStr) : Decidable (Unrouted schema k) :=
  inferInstanceAs (Decidable (∀ r ∈ schema, r.find k = []))

/-- All messages of all topics. -/
def flat (tm : GMap GoStr (List Msg)) : List Msg := tm.entries.flatMap Prod.snd

/-- A key carried inline in the header. -/
def Inline (schema : List RegexpPair) (updates : GMap GoStr Bytes) (deletes : GMap GoStr Unit) (k : GoStr) : Prop :=
  Unrouted schema k ∧ (k ∈ updates.keys ∨ k ∈ deletes.keys)

/-- A prefix under which messages are announced. -/
def Counted (schema : List RegexpPair) (updates : GMap GoStr Bytes) (deletes : GMap GoStr Unit) (pre : GoStr) : Prop :=
  ∃ k topic, (k ∈ updates.keys ∨ k ∈ deletes.keys) ∧ Routes schema k pre topic

/-- The arguments `AddBlock` must reject. -/
def Invalid (schema : List RegexpPair) (updates : GMap GoStr Bytes) (deletes : GMap GoStr Unit)
    (batches : GMap GoStr Hash) : Prop :=
  (∃ k, batches.get? k = some Hash.zero) ∨
  (∃ k, k ∈ batches.keys ∧ Inline schema updates deletes k) ∨
  (∃ pre, Counted schema updates deletes pre ∧ (Inline schema updates deletes pre ∨ pre ∈ batches.keys))

end Spec
end Verif
