import Verif.Model.Consumer
import Verif.Spec.Safe
/-! Vocabulary for the consumer's properties. -/
namespace Verif.Spec

/-- The message type byte of a Reorg message (`delivery/types.go:100`). -/
def IsReorg (m : RMsg) : Prop := m.key.head? = some 5

instance (m : RMsg) : Decidable (IsReorg m) := inferInstanceAs (Decidable (_ = _))

/-- Where `Resumption()` says to restart a source: the recorded offset, otherwise the offset noted when the block was first seen. -/
def resumeAt (pb : PB) (source : GoStr) : Option Int := (pb.resumption.get? source).or (pb.resumptionDefaults.get? source)

/-- Nothing is missing: every announced sub-batch header came, every announced count is used up, every sub-batch message came. -/
def Complete (pb : PB) : Prop :=
  (∀ id, pb.pendingBatches.get? id = none) ∧ (∀ x c, pb.prefixes.get? x = some c → c ≤ 0) ∧
  (∀ id bits, pb.batches.get? id = some bits → ∀ b ∈ bits, b = true)

/-- The eviction requests never ask to drop blocks with this number. -/
def Keeps (env : Env) (number : Int) : Prop := ∀ t, ∀ n ∈ env.evict t, n ≤ number

/-- A processor fed with messages, each handled under some choice of map orders and eviction requests. -/
inductive Fed (C : Codec) : MP → List RMsg → MP → Prop
  | nil (mp : MP) : Fed C mp [] mp
  | cons {mp mp1 mp2 : MP} {m : RMsg} {ms : List RMsg} {e : Option Err} (env : Env)
      (step : mp.processMessage C env m = .ok (mp1, e)) (rest : Fed C mp1 ms mp2) : Fed C mp (m :: ms) mp2

/-- The messages carrying the hash of a block; Reorg messages concern every block. -/
def Own (h : Hash) (m : RMsg) : Prop := IsReorg m ∨ blockOf m.key = h

instance (h : Hash) (m : RMsg) : Decidable (Own h m) := inferInstanceAs (Decidable (_ ∨ _))

/-- The same block with the same content, and the same offsets recorded for its messages. -/
structure SameBlock (a b : PB) : Prop where
  hash : a.hash = b.hash
  parentHash : a.parentHash = b.parentHash
  number : a.number = b.number
  weight : a.weight = b.weight
  values : ∀ k, a.values.get? k = b.values.get? k
  deletes : ∀ k, a.deletes.contains k = b.deletes.contains k
  recorded : ∀ s, a.resumption.get? s = b.resumption.get? s

end Verif.Spec
