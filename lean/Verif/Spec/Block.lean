import Verif.Spec.Producer
import Verif.Spec.Path
import Verif.Spec.Consumer
/-!
# What a produced block is, and what its consumers should see

A block is given by the arguments of one `AddBlock` call and of the `SendBatch` calls for its sub-batches. The expected content
is written in terms of these arguments only.
-/
namespace Verif.Spec

/-- A `SendBatch` call's arguments (`delivery/producer.go:134`). -/
structure SubArgs where
  deletes : List GoStr
  updates : GMap GoStr Bytes

/-- `ms` are the messages of the block as one producer sends it: `AddBlock` succeeded on a producer with this schema, and every sub-batch it announces was
sent by a later `SendBatch` of the same producer (in any state `q` in which the sub-batch is still registered as `AddBlock`
left it). -/
def SentBy (C : Codec) (schema : List RegexpPair) (a : BlockArgs) (subs : Hash → SubArgs) (ms : List Msg) : Prop :=
  ∃ (o : MapOrder) (p p' : Producer) (tm : GMap GoStr (List Msg)) (sent : Hash → List Msg),
    p.schema = schema ∧ addBlock' C o p a = (p', .ok tm) ∧
    (∀ path id, a.batches.get? path = some id → ∃ o' q q' tm', q.pendingBatches.get? id = p'.pendingBatches.get? id ∧
      sendBatch C o' q id (subs id).deletes (subs id).updates = (q', .ok tm') ∧ sent id = flat tm') ∧
    ∀ m, m ∈ ms ↔ m ∈ flat tm ∨ ∃ path id, a.batches.get? path = some id ∧ m ∈ sent id

/-- Two producers are given the same block: the same number, hashes, weight, updates, deletes and sub-batches (maps are equal as maps,
lists of deletes in any order), and their schemas find the same prefixes in the keys of the block (topics may differ). -/
structure SameGiven (schema : List RegexpPair) (a : BlockArgs) (subs : Hash → SubArgs) (schema' : List RegexpPair) (a' : BlockArgs)
    (subs' : Hash → SubArgs) : Prop where
  number : a'.number = a.number
  hash : a'.hash = a.hash
  parent : a'.parentHash = a.parentHash
  weight : a'.weight = a.weight
  updates : ∀ k, a'.updates.get? k = a.updates.get? k
  deletes : ∀ k, a'.deletes.get? k = a.deletes.get? k
  batches : ∀ k, a'.batches.get? k = a.batches.get? k
  routes : ∀ k pre, k ∈ a.updates.keys ∨ k ∈ a.deletes.keys → ((∃ t, Routes schema' k pre t) ↔ ∃ t, Routes schema k pre t)
  subUpdates : ∀ path id, a.batches.get? path = some id → ∀ k, (subs' id).updates.get? k = (subs id).updates.get? k
  subDeletes : ∀ path id, a.batches.get? path = some id → (subs' id).deletes.Perm (subs id).deletes

/-- `ms` are the messages of the block as one or more redundant producers send it: each of them is one of those that some producer, given
the same block, sends for it, and all that this producer sends are among them. (The producers' messages need not be equal: a header
is a map, encoded in any order.) -/
def Produced (C : Codec) (schema : List RegexpPair) (a : BlockArgs) (subs : Hash → SubArgs) (ms : List Msg) : Prop :=
  ms ≠ [] ∧ ∀ m ∈ ms, ∃ schema' a' subs' ms', SameGiven schema a subs schema' a' subs' ∧ SentBy C schema' a' subs' ms' ∧ m ∈ ms' ∧
    ∀ x ∈ ms', x ∈ ms

/-- The consumer with filter `tracked` should see `k` set to `v`: by an update carried inline under an accepted key, by an
update sent under an accepted prefix, or by a sub-batch under an accepted path. -/
def ExpectedValue (tracked : GoStr → Bool) (schema : List RegexpPair) (a : BlockArgs) (subs : Hash → SubArgs)
    (k : GoStr) (v : Bytes) : Prop :=
  (a.updates.get? k = some v ∧ Unrouted schema k ∧ tracked k = true) ∨
  (∃ pre topic, a.updates.get? k = some v ∧ Routes schema k pre topic ∧ tracked pre = true) ∨
  (∃ path id, a.batches.get? path = some id ∧ tracked path = true ∧ (subs id).updates.get? k = some v)

/-- The same for deletes. -/
def ExpectedDelete (tracked : GoStr → Bool) (schema : List RegexpPair) (a : BlockArgs) (subs : Hash → SubArgs)
    (k : GoStr) : Prop :=
  (k ∈ a.deletes.keys ∧ Unrouted schema k ∧ tracked k = true) ∨
  (∃ pre topic, k ∈ a.deletes.keys ∧ Routes schema k pre topic ∧ tracked pre = true) ∨
  (∃ path id, a.batches.get? path = some id ∧ tracked path = true ∧ k ∈ (subs id).deletes)

/-- The conditions under which a block survives the wire, apart from empty values. -/
structure Shaped (schema : List RegexpPair) (a : BlockArgs) (subs : Hash → SubArgs) : Prop where
  /-- the weight is not negative -/
  weight : 0 ≤ a.weight
  /-- the schema matches directories of ordinary keys -/
  dirs : ∀ k pre topic, k ∈ a.updates.keys ∨ k ∈ a.deletes.keys → Routes schema k pre topic → TidyKey k ∧ DirPrefix pre k
  /-- matched prefixes are not nested -/
  nested : ∀ x y, Counted schema a.updates a.deletes x → Counted schema a.updates a.deletes y → x <+: y → x = y
  /-- no inline key is both updated and deleted -/
  inline : ∀ k, Unrouted schema k → k ∈ a.updates.keys → k ∉ a.deletes.keys
  /-- keys updated by sub-batches are not updated by the block -/
  subUpd : ∀ path id k, a.batches.get? path = some id → k ∈ (subs id).updates.keys → k ∉ a.updates.keys
  /-- nor by two sub-batches -/
  subFun : ∀ path id k path' id', a.batches.get? path = some id → k ∈ (subs id).updates.keys →
    a.batches.get? path' = some id' → k ∈ (subs id').updates.keys → id = id'
  /-- keys deleted by sub-batches are not among the deletes sent as messages of their own -/
  subDel : ∀ path id k, a.batches.get? path = some id → k ∈ (subs id).deletes → k ∈ a.deletes.keys → Unrouted schema k
  /-- the counters fit 32 bits -/
  size : a.updates.size + a.deletes.size < 2147483648
  subSize : ∀ path id, a.batches.get? path = some id → (subs id).updates.size + 1 < 2147483648
  /-- the number fits 64 bits -/
  number : InInt64 a.number
  /-- lengths fit 63 bits (true of every Go slice and string) -/
  lenWeight : LenOK (natBytes a.weight.natAbs)
  lenBatches : a.batches.size < 2147483648
  lenUpd : ∀ k v, a.updates.get? k = some v → LenOK k ∧ LenOK v
  lenDel : ∀ k, k ∈ a.deletes.keys → LenOK k
  lenPath : ∀ k, k ∈ a.batches.keys → LenOK k
  lenSubUpd : ∀ path id k v, a.batches.get? path = some id → (subs id).updates.get? k = some v → LenOK k ∧ LenOK v
  lenSubDel : ∀ path id, a.batches.get? path = some id → LenOK (subs id).deletes ∧ ∀ k ∈ (subs id).deletes, LenOK k

/-- All conditions: the block's own values are not empty either (values in sub-batches may be). -/
structure WellFormed (schema : List RegexpPair) (a : BlockArgs) (subs : Hash → SubArgs) : Prop
    extends Shaped schema a subs where
  values : ∀ k v, a.updates.get? k = some v → v ≠ []

/-- The received message is a copy of one of `ms`. -/
def Copy (ms : List Msg) (m : RMsg) : Prop := ∃ x ∈ ms, m.key = x.key ∧ m.value = x.value

/-- A message that carries no block content: Reorg, ReorgDone and types the consumer does not know. -/
def NoContent (m : RMsg) : Prop := 33 ≤ m.key.length ∧ ∃ t, m.key.head? = some t ∧ 5 ≤ t

/-- Of this block only copies of its messages arrive (any number, any order, any source). -/
def Faithful (hash : Hash) (ms : List Msg) (received : List RMsg) : Prop :=
  ∀ m ∈ received, blockOf m.key = hash → Copy ms m ∨ NoContent m

/-- Of every message one copy arrives at least, from whichever producer. -/
def AllArrive (ms : List Msg) (received : List RMsg) : Prop := ∀ x ∈ ms, ∃ m ∈ received, m.key = x.key ∧ Copy ms m

/-- The emitted block is the produced one, seen through the filter. -/
structure Exact (tracked : GoStr → Bool) (schema : List RegexpPair) (a : BlockArgs) (subs : Hash → SubArgs) (pb : PB) : Prop where
  hash : pb.hash = a.hash
  number : pb.number = a.number
  parent : pb.parentHash = a.parentHash
  weight : (pb.weight : Int) = a.weight
  values : ∀ k v, pb.values.get? k = some v ↔ ExpectedValue tracked schema a subs k v
  deletes : ∀ k, pb.deletes.contains k = true ↔ ExpectedDelete tracked schema a subs k

/-- Two emitted blocks a consumer cannot tell apart (apart from the resumption tokens). -/
structure SameContent (pb pb' : PB) : Prop where
  hash : pb.hash = pb'.hash
  number : pb.number = pb'.number
  parent : pb.parentHash = pb'.parentHash
  weight : pb.weight = pb'.weight
  values : ∀ k, pb.values.get? k = pb'.values.get? k
  deletes : ∀ k, pb.deletes.contains k = pb'.deletes.contains k

end Verif.Spec
