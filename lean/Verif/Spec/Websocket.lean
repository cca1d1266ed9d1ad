import Verif.Model.Websocket
import Verif.Spec.Block
/-!
# What the websocket transport should do
-/
namespace Verif.Spec

/-- `AddBlock` of the websocket producer on bundled arguments. -/
def wsAddBlock (p : WProducer) (o : MapOrder) (a : BlockArgs) : WProducer :=
  p.addBlock o a.number a.hash a.parentHash a.weight a.updates a.deletes a.batches

/-- The sub-batch ids a batch message names. -/
def idsOf (b : TBatch) : List Hash := b.batches.entries.map Prod.snd

/-- The blocks with hash `h` among the calls made on the ordering layer. -/
def blocksWith (h : Hash) (l : List WOut) : List WsBlock :=
  l.filterMap fun
    | .block b => if b.hash = h then some b else none
    | .reorg .. => none

/-- A block and its sub-batches: every sub-batch names the block and its own id, and the ids are
distinct. -/
structure WellParted (b : TBatch) (subs : Hash → TSub) : Prop where
  distinct : (idsOf b).Nodup
  hash : ∀ id ∈ idsOf b, (subs id).hash = b.hash
  id : ∀ id ∈ idsOf b, (subs id).batchId = id

/-- Some part of the block assigns `v` to `k`. -/
def PartValue (b : TBatch) (subs : Hash → TSub) (k : GoStr) (v : Bytes) : Prop :=
  b.values.get? k = some v ∨ ∃ id ∈ idsOf b, (subs id).values.get? k = some v

/-- Some part of the block deletes `k`. -/
def PartDelete (b : TBatch) (subs : Hash → TSub) (k : GoStr) : Prop :=
  k ∈ b.deletes ∨ ∃ id ∈ idsOf b, k ∈ (subs id).deletes

/-- No two parts assign different values to one key. -/
def PartsAgree (b : TBatch) (subs : Hash → TSub) : Prop :=
  ∀ k v w, PartValue b subs k v → PartValue b subs k w → v = w

/-- The block handed on is the union of its parts. -/
structure Assembled (b : TBatch) (subs : Hash → TSub) (pb : WsBlock) : Prop where
  number : pb.number = ofUint64 b.number
  weight : pb.weight = b.weight
  hash : pb.hash = b.hash
  parent : pb.parentHash = b.parentHash
  values : ∀ k v, pb.values.get? k = some v ↔ PartValue b subs k v
  deletes : ∀ k, pb.deletes.contains k = true ↔ PartDelete b subs k

/-- The message has nothing to do with the block (and is not a malformed one). -/
def Elsewhere (b : TBatch) : WMsg → Prop
  | .batch x => x.hash ≠ b.hash ∧ ∀ id ∈ idsOf x, id ∉ idsOf b
  | .sub s => s.hash ≠ b.hash ∧ s.batchId ∉ idsOf b
  | .hollow => False
  | _ => True

/-- The messages of the block. -/
inductive PartOf (b : TBatch) (subs : Hash → TSub) : WMsg → Prop
  | batch : PartOf b subs (.batch b)
  | sub {id : Hash} : id ∈ idsOf b → PartOf b subs (.sub (subs id))

/-- All messages of the block are among `ms`. -/
def AllParts (b : TBatch) (subs : Hash → TSub) (ms : List WMsg) : Prop := ∀ m, PartOf b subs m → m ∈ ms

/-- Everything received belongs to the block or has nothing to do with it; the batch message comes at most once, the
sub-batch messages any number of times. -/
structure OneBatch (b : TBatch) (subs : Hash → TSub) (ms : List WMsg) : Prop where
  only : ∀ m ∈ ms, PartOf b subs m ∨ Elsewhere b m
  once : ∀ l r, ms = l ++ .batch b :: r → WMsg.batch b ∉ l

/-- The second list is the first with unrelated messages put in between. -/
inductive Woven (b : TBatch) : List WMsg → List WMsg → Prop
  | nil : Woven b [] []
  | take {m sel ms} : Woven b sel ms → Woven b (m :: sel) (m :: ms)
  | skip {m sel ms} : Elsewhere b m → Woven b sel ms → Woven b sel (m :: ms)

/-- Each message of the block is received exactly once, in any order, interleaved with messages that have nothing to
do with it. -/
def EachOnce (b : TBatch) (subs : Hash → TSub) (ms : List WMsg) : Prop :=
  ∃ sel : List WMsg, sel.Perm (.batch b :: (idsOf b).map (fun id => .sub (subs id))) ∧ Woven b sel ms

/-- The byte string is the UTF-8 encoding of some text. -/
def Utf8 (s : GoStr) : Prop := ∃ cs : List Char, s = cs.flatMap String.utf8EncodeChar

/-- Everything textual in the block and its sub-batches is UTF-8. -/
structure Textual (a : BlockArgs) (subs : Hash → SubArgs) : Prop where
  values : ∀ k ∈ a.updates.keys, Utf8 k
  deletes : ∀ k ∈ a.deletes.keys, Utf8 k
  paths : ∀ k ∈ a.batches.keys, Utf8 k
  subValues : ∀ path id, a.batches.get? path = some id → ∀ k ∈ (subs id).updates.keys, Utf8 k
  subDeletes : ∀ path id, a.batches.get? path = some id → ∀ k ∈ (subs id).deletes, Utf8 k

/-- Some part of the produced block assigns `v` to `k`. -/
def WsValue (a : BlockArgs) (subs : Hash → SubArgs) (k : GoStr) (v : Bytes) : Prop :=
  a.updates.get? k = some v ∨ ∃ path id, a.batches.get? path = some id ∧ (subs id).updates.get? k = some v

/-- Some part of the produced block deletes `k`. -/
def WsDelete (a : BlockArgs) (subs : Hash → SubArgs) (k : GoStr) : Prop :=
  k ∈ a.deletes.keys ∨ ∃ path id, a.batches.get? path = some id ∧ k ∈ (subs id).deletes

/-- The block handed on is the one produced. -/
structure WsExact (a : BlockArgs) (subs : Hash → SubArgs) (pb : WsBlock) : Prop where
  number : pb.number = a.number
  weight : pb.weight = a.weight
  hash : pb.hash = a.hash
  parent : pb.parentHash = a.parentHash
  values : ∀ k v, pb.values.get? k = some v ↔ WsValue a subs k v
  deletes : ∀ k, pb.deletes.contains k = true ↔ WsDelete a subs k

/-- The messages of `AddBlock` and of the `SendBatch` calls for its sub-batches, as the consumer decodes them. -/
def wsMessages (o o' : MapOrder) (a : BlockArgs) (subs : Hash → SubArgs) : TBatch × (Hash → TSub) :=
  ((wsBatch o a.number a.hash a.parentHash a.weight a.updates a.deletes a.batches).json o',
   fun id => TSub.json o' ⟨a.hash, id, (subs id).updates, (subs id).deletes⟩)

/-- Calls on the websocket producer. -/
inductive WOp where
  | add (o : MapOrder) (a : BlockArgs)
  | send (id : Hash) (s : SubArgs)

/-- The effect of a call; a rejected `SendBatch` leaves the producer as it is. -/
def WOp.apply (p : WProducer) : WOp → WProducer
  | .add o a => wsAddBlock p o a
  | .send id s => match p.sendBatch id s.deletes s.updates with
    | .ok q => q
    | .error _ => p

/-- The call announces the sub-batch id or sends it. -/
def WOp.Concerns (id : Hash) : WOp → Prop
  | .add _ a => ∃ path, a.batches.get? path = some id
  | .send x _ => x = id

/-- The last call concerning the id announced it, for the block with hash `h`. -/
def Owner (ops : List WOp) (id h : Hash) : Prop :=
  ∃ l o a r, ops = l ++ .add o a :: r ∧ (WOp.add o a).Concerns id ∧ a.hash = h ∧ ∀ x ∈ r, ¬ x.Concerns id

/-- The block with this hash was handed to the ordering layer. -/
def WasProcessed (l : List WOut) (h : Hash) : Prop := ∃ pb, WOut.block pb ∈ l ∧ pb.hash = h

end Verif.Spec
