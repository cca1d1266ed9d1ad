import Verif.Model.System
import Verif.Spec.Provenance
import Verif.Spec.Ordering
import Verif.Spec.Consumer
/-! What may be told to subscribers when nothing is known of the producers. -/
namespace Verif.Spec

/-- The calls say that block `h` has this parent, number and weight: in a header that can be decoded, or in a block handed over complete. -/
inductive Described (C : Codec) (cs : List Call) (h : Hash) (parent : Hash) (number : Int) (weight : Nat) : Prop
  | header (m : RMsg) (b : Batch) (hm : Of (fun m => .msg m ∈ cs) h 0 m) (hd : C.decBatch m.value = some b) (hp : b.parentHash = parent)
      (hn : b.number = number) (hw : bytesNat b.weight = weight)
  | block (pb : PB) (hm : .block pb ∈ cs) (hh : pb.hash = h) (hp : pb.parentHash = parent) (hn : pb.number = number) (hw : pb.weight = weight)

/-- What hashes are for: nobody gives two blocks the same hash, and nobody has a block with the hash zero. Nothing else is asked of the calls. -/
structure HashesIdentify (C : Codec) (cs : List Call) : Prop where
  one : ∀ h p n w p' n' w', Described C cs h p n w → Described C cs h p' n' w' → p = p' ∧ n = n' ∧ w = w'
  nonzero : ∀ h p n w, Described C cs h p n w → h ≠ Hash.zero

/-- Everything in the block was received: it was handed over as it is, or its header, its values and its deletes were received in messages that the filter accepts. -/
inductive Received (C : Codec) (cs : List Call) (tracked : GoStr → Bool) (pb : PB) : Prop
  | whole (b : PB) (hm : .block b ∈ cs) (hs : SameBlock pb b)
  | parts (hd : RMsg) (b : Batch) (hh : Of (fun m => .msg m ∈ cs) pb.hash 0 hd) (hb : C.decBatch hd.value = some b) (hn : pb.number = b.number)
      (hp : pb.parentHash = b.parentHash) (hw : pb.weight = bytesNat b.weight)
      (hv : ∀ k v, pb.values.get? k = some v → ValueFrom C (fun m => .msg m ∈ cs) tracked pb.hash b pb k v)
      (hdl : ∀ k, pb.deletes.contains k = true → DeleteFrom C (fun m => .msg m ∈ cs) tracked pb.hash b pb k)

/-- A reorg to block `h` was received, with the number. -/
def ReorgCame (C : Codec) (cs : List Call) (n : Int) (h : Hash) : Prop := ∃ m, Of (fun m => .msg m ∈ cs) h 5 m ∧ C.decInt m.value = some n

end Verif.Spec
