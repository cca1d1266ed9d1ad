import Verif.Model.Types
/-!
# `delivery/producer.go`
-/
namespace Verif

/-- `regexpPair`, `delivery/producer.go:43-46`. A compiled expression is represented by its `FindString`
function, which returns "" when there is no match. -/
structure RegexpPair where
  find : GoStr → GoStr
  topic : GoStr

/-- `batchInfo`, `delivery/producer.go:11-14`. -/
structure BatchInfo where
  topic : GoStr
  block : Hash
deriving DecidableEq

/-- `Producer`, `delivery/producer.go:16-20`. -/
structure Producer where
  schema : List RegexpPair
  defaultTopic : GoStr
  pendingBatches : GMap Hash BatchInfo

/-- `strings.HasPrefix(s, prefix)`. -/
def hasPrefix (s pre : GoStr) : Bool := pre.isPrefixOf s

/-- One round of the loop `delivery/producer.go:25-39` for schema entry `(i, topic)`. `compile` is
`regexp.Compile` (`none` on error); byte 94 is '^'. -/
def schemaEntry (compile : GoStr → Option (GoStr → GoStr)) (keys : List GoStr) (i topic : GoStr) :
    Except Err RegexpPair :=
  if keys.any (fun j => i ≠ j && hasPrefix i j) then .error .prefixOverlap
  else match compile i with
    | none => .error .regexp
    | some exp =>
      if hasPrefix i [94] then .ok ⟨exp, topic⟩
      else match compile (94 :: i) with
        | none => .error .regexp
        | some exp' => .ok ⟨exp', topic⟩

/-- `NewProducer`, `delivery/producer.go:22-41`. The schema order is the map iteration order. -/
def newProducer (o : MapOrder) (compile : GoStr → Option (GoStr → GoStr)) (defaultTopic : GoStr)
    (schema : GMap GoStr GoStr) : Except Err Producer := do
  let s ← (o.ord 0 schema.entries).mapM (fun e => schemaEntry compile schema.keys e.1 e.2)
  return { schema := s, defaultTopic := defaultTopic, pendingBatches := GMap.empty }

/-- `big.Int.Bytes()`: big-endian bytes without leading zeros. The sign is lost, as in Go. -/
def natBytes (n : Nat) : Bytes :=
  if n = 0 then [] else natBytes (n / 256) ++ [UInt8.ofNat (n % 256)]

/-- `big.Int.SetBytes`. -/
def bytesNat (b : Bytes) : Nat := b.foldl (fun n x => n * 256 + x.toNat) 0

/-- The search loop over `p.schema` (`delivery/producer.go:70-81`, `89-99`, `115-120`): the first entry with a
non-empty match, giving the match and the topic. -/
def firstMatch (schema : List RegexpPair) (k : GoStr) : Option (GoStr × GoStr) :=
  schema.findSome? (fun r => if r.find k ≠ [] then some (r.find k, r.topic) else none)

/-- `topicMessages[topic] = append(topicMessages[topic], m)` with the creation of an empty list
(`delivery/producer.go:72-77`). -/
def pushMsg (tm : GMap GoStr (List Msg)) (topic : GoStr) (m : Msg) : GMap GoStr (List Msg) :=
  tm.insert topic ((tm.get? topic).getD [] ++ [m])

/-- Local variables of `AddBlock`: `topicMessages`, `counts`, `b.Updates`. -/
structure ABState where
  tm : GMap GoStr (List Msg)
  counts : GMap GoStr Int
  upd : GMap GoStr BatchRecord

/-- Body of the loop over `updates`, `delivery/producer.go:68-85`. -/
def abUpdate (schema : List RegexpPair) (hash : Hash) (s : ABState) (e : GoStr × Bytes) : ABState :=
  match firstMatch schema e.1 with
  | some (pre, topic) =>
    { s with
      counts := s.counts.insert pre ((s.counts.get? pre).getD 0 + 1)
      tm := pushMsg s.tm topic ⟨getKey BatchMsgType [hash.bytes, e.1], e.2⟩ }
  | none => { s with upd := s.upd.insert e.1 { value := e.2 } }

/-- Body of the loop over `deletes`, `delivery/producer.go:87-103`. -/
def abDelete (schema : List RegexpPair) (hash : Hash) (s : ABState) (e : GoStr × Unit) : ABState :=
  match firstMatch schema e.1 with
  | some (pre, topic) =>
    { s with
      counts := s.counts.insert pre ((s.counts.get? pre).getD 0 + 1)
      tm := pushMsg s.tm topic ⟨getKey BatchDeleteMsgType [hash.bytes, e.1], []⟩ }
  | none => { s with upd := s.upd.insert e.1 { delete := true } }

/-- The topic chosen for a sub-batch path, `delivery/producer.go:111-120`. -/
def topicOf (p : Producer) (k : GoStr) : GoStr :=
  match firstMatch p.schema k with
  | some (_, t) => t
  | none => p.defaultTopic

/-- The loop over `batches`, `delivery/producer.go:105-122`. It also changes `p.pendingBatches`; on error
the changes made so far stay. -/
def abBatches (p : Producer) (hash : Hash) :
    List (GoStr × Hash) → GMap GoStr BatchRecord → GMap Hash BatchInfo →
    GMap Hash BatchInfo × Except Err (GMap GoStr BatchRecord)
  | [], upd, pend => (pend, .ok upd)
  | (k, h) :: rest, upd, pend =>
    if h = Hash.zero then (pend, .error .invalidBatch)
    else if upd.contains k then (pend, .error .prefixConflict)
    else abBatches p hash rest (upd.insert k { subbatch := h }) (pend.insert h ⟨topicOf p k, hash⟩)

/-- The loop over `counts`, `delivery/producer.go:123-126`. -/
def abCounts : List (GoStr × Int) → GMap GoStr BatchRecord → Except Err (GMap GoStr BatchRecord)
  | [], upd => .ok upd
  | (k, c) :: rest, upd =>
    if upd.contains k then .error .prefixConflict
    else abCounts rest (upd.insert k { count := c })

/-- `Producer.AddBlock`, `delivery/producer.go:56-132`. Returns the changed producer too (also on error).
Iteration sites: 0 updates, 1 deletes, 2 batches, 3 counts, 4 the Avro encoder's walk over `Updates`. -/
def addBlock (C : Codec) (o : MapOrder) (p : Producer) (number : Int) (hash parentHash : Hash) (weight : Int)
    (updates : GMap GoStr Bytes) (deletes : GMap GoStr Unit) (batches : GMap GoStr Hash) :
    Producer × Except Err (GMap GoStr (List Msg)) :=
  let s0 : ABState := ⟨GMap.empty.insert p.defaultTopic [], GMap.empty, GMap.empty⟩
  let s1 := (o.ord 0 updates.entries).foldl (abUpdate p.schema hash) s0
  let s2 := (o.ord 1 deletes.entries).foldl (abDelete p.schema hash) s1
  let (pend, r) := abBatches p hash (o.ord 2 batches.entries) s2.upd p.pendingBatches
  let p' := { p with pendingBatches := pend }
  match r with
  | .error e => (p', .error e)
  | .ok upd =>
    match abCounts (o.ord 3 s2.counts.entries) upd with
    | .error e => (p', .error e)
    | .ok upd' =>
      let b : Batch := { number, weight := natBytes weight.natAbs, parentHash, updates := upd'.reorder o 4 }
      (p', .ok (pushMsg s2.tm p.defaultTopic ⟨getKey BatchType [hash.bytes], C.encBatch b⟩))

/-- Go's string comparison `a <= b` (bytewise lexicographic), used by `sort.Strings`. -/
def strLe : GoStr → GoStr → Bool
  | [], _ => true
  | _ :: _, [] => false
  | a :: as, b :: bs => a < b || (a == b && strLe as bs)

/-- The messages of `SendBatch` for the sorted updates, `delivery/producer.go:155-164`. -/
def subUpdateMsgs (C : Codec) (block batchid : Hash) : Nat → List (GoStr × Bytes) → List Msg
  | _, [] => []
  | counter, (k, v) :: rest =>
    ⟨getKey SubBatchMsgType [block.bytes, batchid.bytes, C.encInt counter],
      C.encSub { delete := [], updates := GMap.empty.insert k v }⟩ :: subUpdateMsgs C block batchid (counter + 1) rest

/-- `Producer.SendBatch`, `delivery/producer.go:134-167`. Site 0 is the `range` that collects the keys.
`update[k]` of a key of the map is looked up again as in the code. -/
def sendBatch (C : Codec) (o : MapOrder) (p : Producer) (batchid : Hash) (deletes : List GoStr)
    (update : GMap GoStr Bytes) : Producer × Except Err (GMap GoStr (List Msg)) :=
  match p.pendingBatches.get? batchid with
  | none => (p, .error .unknownBatch)
  | some bi =>
    let p' := { p with pendingBatches := p.pendingBatches.erase batchid }
    let delMsgs : List Msg :=
      if deletes.length > 0 then
        [⟨getKey SubBatchMsgType [bi.block.bytes, batchid.bytes, C.encInt 0],
          C.encSub { delete := deletes, updates := GMap.empty }⟩]
      else []
    let keys := ((o.ord 0 update.entries).map Prod.fst).mergeSort strLe
    let updMsgs := subUpdateMsgs C bi.block batchid delMsgs.length
      (keys.map (fun k => (k, (update.get? k).getD [])))
    let counter := delMsgs.length + updMsgs.length
    let header : Msg := ⟨getKey SubBatchHeaderType [bi.block.bytes, batchid.bytes], C.encInt counter⟩
    (p', .ok (GMap.empty.insert bi.topic (header :: (delMsgs ++ updMsgs))))

/-- `Producer.Reorg`, `delivery/producer.go:173-175`. -/
def reorgMsg (C : Codec) (number : Int) (hash : Hash) : Msg :=
  ⟨getKey ReorgType [hash.bytes], C.encInt number⟩

/-- `Producer.ReorgDone`, `delivery/producer.go:178-180`. -/
def reorgDoneMsg (C : Codec) (number : Int) (hash : Hash) : Msg :=
  ⟨getKey ReorgCompleteType [hash.bytes], C.encInt number⟩

end Verif
