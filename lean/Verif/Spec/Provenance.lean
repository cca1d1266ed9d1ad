import Verif.Model.Consumer
import Verif.Spec.Safe
/-! Where the content of an emitted block may come from. -/
namespace Verif.Spec

/-- `path.Dir` applied `n` times. -/
def dirN : Nat → GoStr → GoStr
  | 0, p => p
  | n + 1, p => dirN n (Path.dir p)

/-- A counted prefix `x` covers the path `k`: it is `k`, or `k` or one of its parent directories, without leading slash and
followed by a slash. -/
def Covers (x k : GoStr) : Prop := x = k ∨ ∃ n, x = Path.dirKey (dirN n k)

/-- The block's resumption map starts the message's source at or before the message. -/
def Recorded (pb : PB) (m : RMsg) : Prop := ∃ o, pb.resumption.get? m.source = some o ∧ o ≤ m.offset

/-- Message `m`, one of `S`, belongs to block `h` and has wire type `t`. -/
structure Of (S : RMsg → Prop) (h : Hash) (t : UInt8) (m : RMsg) : Prop where
  mem : S m
  block : blockOf m.key = h
  type : m.key.head? = some t

/-- The header `b` has an entry for `x` that the filter accepts. -/
def Accepted (tracked : GoStr → Bool) (b : Batch) (x : GoStr) (r : BatchRecord) : Prop :=
  b.updates.get? x = some r ∧ tracked x = true

/-- The value of `k` is an accepted inline value, or was sent by a BatchMsg covered by an accepted count, or by a message of an
accepted sub-batch; the message is recorded in the resumption map. -/
inductive ValueFrom (C : Codec) (S : RMsg → Prop) (tracked : GoStr → Bool) (h : Hash) (b : Batch) (pb : PB) (k : GoStr)
    (v : Bytes) : Prop
  | inline (r : BatchRecord) (ha : Accepted tracked b k r) (hv : r.value = v)
  | msg (m : RMsg) (x : GoStr) (r : BatchRecord) (hm : Of S h 3 m) (hk : m.key.drop 33 = k) (hv : m.value = v)
      (hr : Recorded pb m) (ha : Accepted tracked b x r) (hc : r.count ≠ 0) (hx : Covers x k)
  | sub (m : RMsg) (u : SubBatchRecord) (x : GoStr) (r : BatchRecord) (hm : Of S h 2 m) (hu : C.decSub m.value = some u)
      (hv : u.updates.get? k = some v) (hr : Recorded pb m) (ha : Accepted tracked b x r)
      (hx : r.subbatch = bytesToHash ((m.key.drop 33).take 32)) (hz : r.subbatch ≠ Hash.zero)

/-- The same for deletes. -/
inductive DeleteFrom (C : Codec) (S : RMsg → Prop) (tracked : GoStr → Bool) (h : Hash) (b : Batch) (pb : PB) (k : GoStr) : Prop
  | inline (r : BatchRecord) (ha : Accepted tracked b k r) (hv : r.delete = true)
  | msg (m : RMsg) (x : GoStr) (r : BatchRecord) (hm : Of S h 4 m) (hk : m.key.drop 33 = k)
      (hr : Recorded pb m) (ha : Accepted tracked b x r) (hc : r.count ≠ 0) (hx : Covers x k)
  | sub (m : RMsg) (u : SubBatchRecord) (x : GoStr) (r : BatchRecord) (hm : Of S h 2 m) (hu : C.decSub m.value = some u)
      (hv : k ∈ u.delete) (hr : Recorded pb m) (ha : Accepted tracked b x r)
      (hx : r.subbatch = bytesToHash ((m.key.drop 33).take 32)) (hz : r.subbatch ≠ Hash.zero)

end Verif.Spec
