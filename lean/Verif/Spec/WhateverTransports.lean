import Verif.Spec.Whatever
import Verif.Model.WebsocketSystem
/-! What may be told to subscribers of a Kafka or websocket consumer when nothing is known of the topic or of the server. -/
namespace Verif.Spec

/-- All messages of the partitions, as calls of `ProcessMessage`. -/
def fetched (np : Nat) (msgs : Nat → List RMsg) : List Call := (List.range np).flatMap fun i => (msgs i).map Call.msg

/-- The batch names this sub-batch. -/
def Lists (b : TBatch) (id : Hash) : Prop := ∃ p, b.batches.get? p = some id

/-- A sub-batch read that bears the hash of the block or an id the batch names. -/
structure WsPart (read : List WMsg) (b : TBatch) (s : TSub) : Prop where
  mem : .sub s ∈ read
  mine : s.hash = b.hash ∨ Lists b s.batchId

/-- The block is made of this batch and of sub-batches, all among the items `read`. -/
structure MadeOf (read : List WMsg) (b : TBatch) (pb : PB) : Prop where
  mem : .batch b ∈ read
  number : pb.number = ofUint64 b.number
  weight : pb.weight = b.weight.toNat
  hash : pb.hash = b.hash
  parentHash : pb.parentHash = b.parentHash
  values : ∀ k v, pb.values.get? k = some v → b.values.get? k = some v ∨ ∃ s, WsPart read b s ∧ s.values.get? k = some v
  deletes : ∀ k, pb.deletes.contains k = true → k ∈ b.deletes ∨ ∃ s, WsPart read b s ∧ k ∈ s.deletes

/-- Batches with the same hash name the same sub-batches. -/
def SameParts (read : List WMsg) : Prop :=
  ∀ b b', .batch b ∈ read → .batch b' ∈ read → b.hash = b'.hash → ∀ id, Lists b id → Lists b' id

/-- Every sub-batch the batch names has been read. -/
def AllCame (read : List WMsg) (b : TBatch) : Prop := ∀ id, Lists b id → ∃ s, .sub s ∈ read ∧ s.batchId = id

/-- The block was read on one connection, and in full unless the server sends different batches with one hash. -/
def WsReceived (read : List WMsg) (pb : PB) : Prop := ∃ b, MadeOf read b pb ∧ (SameParts read → AllCame read b)

/-- What hashes are for, over all connections. -/
structure WsIdentify (conns : List (List WMsg)) : Prop where
  one : ∀ b b', .batch b ∈ conns.flatten → .batch b' ∈ conns.flatten → b.hash = b'.hash →
    b.parentHash = b'.parentHash ∧ b.number = b'.number ∧ b.weight = b'.weight
  nonzero : ∀ b, .batch b ∈ conns.flatten → b.hash ≠ Hash.zero

end Verif.Spec
