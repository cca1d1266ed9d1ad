import Verif.Model.Producer
/-!
# The websocket transport (`transports/websockets.go`)

Not modelled: dialling, the RPC envelope up to the point named at `WFrame`, goroutine scheduling
inside `types.Feed`, and the back-pressure sleeps. `encoding/json` is represented by its effect on
a value that is encoded by the producer and decoded by the consumer (`TBatch.json`, `TSub.json`):
numbers, hashes, byte strings and non-negative weights come back unchanged, text strings come back
through `jsonString`.
-/
namespace Verif

/-! ## JSON strings -/

/-- Continuation bytes `0x80`-`0xBF`, or the narrower range Go demands of the second byte after
some first bytes (`unicode/utf8.acceptRanges`). -/
def utf8Accept (lo hi : Nat) (b : UInt8) : Bool := lo ≤ b.toNat && b.toNat ≤ hi

/-- How many bytes of the input form a well-formed UTF-8 sequence at its start, `none` if there is none.
This is `utf8.DecodeRune` of the Go standard library without the value: ASCII, then the two-, three- and four-byte
forms with the accept ranges for `E0`, `ED`, `F0` and `F4`. -/
def utf8Size : Bytes → Option Nat
  | [] => none
  | b :: r =>
    if b.toNat < 0x80 then some 1
    else if b.toNat < 0xC2 then none
    else if b.toNat < 0xE0 then
      match r with
      | c :: _ => if utf8Accept 0x80 0xBF c then some 2 else none
      | _ => none
    else if b.toNat < 0xF0 then
      match r with
      | c :: d :: _ =>
        let lo := if b.toNat = 0xE0 then 0xA0 else 0x80
        let hi := if b.toNat = 0xED then 0x9F else 0xBF
        if utf8Accept lo hi c && utf8Accept 0x80 0xBF d then some 3 else none
      | _ => none
    else if b.toNat < 0xF5 then
      match r with
      | c :: d :: e :: _ =>
        let lo := if b.toNat = 0xF0 then 0x90 else 0x80
        let hi := if b.toNat = 0xF4 then 0x8F else 0xBF
        if utf8Accept lo hi c && utf8Accept 0x80 0xBF d && utf8Accept 0x80 0xBF e then some 4 else none
      | _ => none
    else none

/-- `jsonString` with fuel (the input length suffices, every step removes a byte). -/
def jsonStringAux : Nat → Bytes → Bytes
  | 0, _ => []
  | _ + 1, [] => []
  | n + 1, b :: r =>
    match utf8Size (b :: r) with
    | some k => (b :: r).take k ++ jsonStringAux n ((b :: r).drop k)
    | none => 0xEF :: 0xBF :: 0xBD :: jsonStringAux n r

/-- A Go string encoded by `json.Marshal` and decoded by `json.Unmarshal`: every byte that is not
part of well-formed UTF-8 comes back as U+FFFD; everything else comes back as it was (escapes are
undone by the decoder). Used for the map keys and the deletes of `transports/websockets.go:55-57,82-83`. -/
def jsonString (s : GoStr) : GoStr := jsonStringAux s.length s

/-! ## Messages -/

/-- `int64` to `uint64` conversion (`hexutil.Uint64(uint64(number))`, `transports/websockets.go:144`). -/
def wireUint64 (n : Int) : Nat := (n % 18446744073709551616).toNat

/-- `uint64` to `int64` conversion (`int64(tb.Number)`, `transports/websockets.go:62,411`). -/
def ofUint64 (n : Nat) : Int :=
  if n < 9223372036854775808 then (n : Int) else (n : Int) - 18446744073709551616

/-- `TransportBatch`, `transports/websockets.go:50-58`. -/
structure TBatch where
  number : Nat
  weight : Int
  hash : Hash
  parentHash : Hash
  values : GMap GoStr Bytes
  deletes : List GoStr
  batches : GMap GoStr Hash

/-- `transportSubbatch`, `transports/websockets.go:78-83`. -/
structure TSub where
  hash : Hash
  batchId : Hash
  values : GMap GoStr Bytes
  deletes : List GoStr

/-- `resultMessage` after decoding, `transports/websockets.go:44-48`, by its `Type`. -/
inductive WMsg where
  | ready
  | reorg (number : Nat) (hash : Hash)
  | batch (b : TBatch)
  | sub (s : TSub)
  /-- type `reorg`, `batch` or `subbatch` without the `batch`/`subbatch` member: a nil pointer -/
  | hollow
  /-- any other type -/
  | unknown

/-- A string map through JSON: keys change as strings do. Keys that become equal: one of them wins. -/
def jsonMap {V : Type} (o : MapOrder) (n : Nat) (m : GMap GoStr V) : GMap GoStr V :=
  (o.ord n m.entries).foldl (fun acc e => acc.insert (jsonString e.1) e.2) GMap.empty

/-- A batch encoded by the producer and decoded by the consumer (`transports/websockets.go:50-58`; the
encoding itself is `encoding/json` and cardinal-types/hexutil). Weights are assumed to be
non-negative and below 2^256, which is what `hexutil.Big` can carry. -/
def TBatch.json (o : MapOrder) (b : TBatch) : TBatch :=
  { b with values := jsonMap o 0 b.values, deletes := b.deletes.map jsonString, batches := jsonMap o 1 b.batches }

/-- The same for a sub-batch, `transports/websockets.go:78-83`. -/
def TSub.json (o : MapOrder) (s : TSub) : TSub :=
  { s with values := jsonMap o 0 s.values, deletes := s.deletes.map jsonString }

/-! ## Producer -/

/-- `websocketProducer`: `expectedBatches` and the messages given to `feed.Send` so far
(`transports/websockets.go:32-37`). -/
structure WProducer where
  expected : GMap Hash Hash
  sent : List WMsg

/-- `NewWebsocketProducer`, `transports/websockets.go:90-110`. -/
def WProducer.new : WProducer := ⟨GMap.empty, []⟩

/-- The batch message built at `transports/websockets.go:131-152`. Copying the values map key by key gives
the same map; deletes are listed in map order. -/
def wsBatch (o : MapOrder) (number : Int) (hash parentHash : Hash) (weight : Int) (updates : GMap GoStr Bytes)
    (deletes : GMap GoStr Unit) (batches : GMap GoStr Hash) : TBatch :=
  { number := wireUint64 number, weight := weight, hash := hash, parentHash := parentHash,
    values := updates, deletes := o.ord 0 deletes.keys, batches := batches }

/-- `AddBlock`, `transports/websockets.go:131-158`. -/
def WProducer.addBlock (p : WProducer) (o : MapOrder) (number : Int) (hash parentHash : Hash) (weight : Int)
    (updates : GMap GoStr Bytes) (deletes : GMap GoStr Unit) (batches : GMap GoStr Hash) : WProducer :=
  { sent := p.sent ++ [.batch (wsBatch o number hash parentHash weight updates deletes batches)]
    expected := (o.ord 1 batches.entries).foldl (fun m e => m.insert e.2 hash) p.expected }

/-- `SendBatch`, `transports/websockets.go:159-179`. -/
def WProducer.sendBatch (p : WProducer) (batchId : Hash) (deletes : List GoStr) (updates : GMap GoStr Bytes) :
    Except Err WProducer :=
  match p.expected.get? batchId with
  | none => .error .unknownBatch
  | some h => .ok { sent := p.sent ++ [.sub ⟨h, batchId, updates, deletes⟩], expected := p.expected.erase batchId }

/-- `Reorg`, `transports/websockets.go:180-191`. -/
def WProducer.reorg (p : WProducer) (number : Int) (hash : Hash) : WProducer :=
  { p with sent := p.sent ++ [.reorg (wireUint64 number) hash] }

/-! ## Blocks as the consumer hands them on -/

/-- The fields of `delivery.PendingBatch` set at `transports/websockets.go:410-417` (and by
`ToPendingBatch`, lines 60-76). -/
structure WsBlock where
  number : Int
  weight : Int
  hash : Hash
  parentHash : Hash
  values : GMap GoStr Bytes
  deletes : GMap GoStr Unit

/-- `for k, v := range m { pb.Values[k] = v }`. The keys of a map are distinct, so the order does not matter. -/
def putAll (m : GMap GoStr Bytes) (vs : GMap GoStr Bytes) : GMap GoStr Bytes :=
  vs.entries.foldl (fun acc e => acc.insert e.1 e.2) m

/-- `for _, k := range ds { pb.Deletes[k] = struct{}{} }`. -/
def markAll (m : GMap GoStr Unit) (ds : List GoStr) : GMap GoStr Unit :=
  ds.foldl (fun acc k => acc.insert k ()) m

/-- `ToPendingBatch`, `transports/websockets.go:60-76`; the same code is inlined at lines 410-423. -/
def TBatch.toPending (b : TBatch) : WsBlock :=
  { number := ofUint64 b.number, weight := b.weight, hash := b.hash, parentHash := b.parentHash,
    values := putAll GMap.empty b.values, deletes := markAll GMap.empty b.deletes }

/-- The message built by `StreamsBlock` (`transports/websockets.go:200-223`) and by the initial part of
`Streams` (lines 236-267) from a stored block. -/
def streamsBatch (o : MapOrder) (b : WsBlock) : TBatch :=
  { number := wireUint64 b.number, weight := b.weight, hash := b.hash, parentHash := b.parentHash,
    values := b.values, deletes := o.ord 0 b.deletes.keys, batches := GMap.empty }

/-- Merging a sub-batch, `transports/websockets.go:427-432` and `451-456`. -/
def WsBlock.merge (pb : WsBlock) (s : TSub) : WsBlock :=
  { pb with values := putAll pb.values s.values, deletes := markAll pb.deletes s.deletes }

/-! ## Consumer -/

/-- What the consumer does to the ordering layer, in order. -/
inductive WOut where
  /-- `c.omp.ProcessCompleteBatch(pb)` -/
  | block (b : WsBlock)
  /-- `c.omp.HandleReorg(number, hash)` -/
  | reorg (number : Int) (hash : Hash)

/-- The state of the consumer goroutine within one connection: the three maps of
`transports/websockets.go:334-336`, and `lastNum`, `lastHash`, the closed `ready` channel and the calls
made on the ordering layer so far, which live on between connections. -/
structure WConn where
  batches : GMap Hash WsBlock
  subs : GMap Hash TSub
  pending : GMap Hash (GMap Hash Unit)
  lastNum : Nat
  lastHash : Hash
  isReady : Bool
  out : List WOut

/-- `newWebsocketConsumer`, `transports/websockets.go:313-315`, before the first connection. -/
def WConn.new (lastNum : Int) (lastHash : Hash) : WConn :=
  ⟨GMap.empty, GMap.empty, GMap.empty, wireUint64 lastNum, lastHash, false, []⟩

/-- A new connection: the maps are made anew (`transports/websockets.go:334-336`). -/
def WConn.reconnect (c : WConn) : WConn :=
  { c with batches := GMap.empty, subs := GMap.empty, pending := GMap.empty }

/-- The call `cardinal_subscribe` made on a new connection (`transports/websockets.go:337`). -/
def WConn.request (c : WConn) : Nat × Hash := (c.lastNum, c.lastHash)

/-- `ProcessCompleteBatch` and the recorded position, `transports/websockets.go:441-443` and `462-464`. -/
def WConn.finish (c : WConn) (pb : WsBlock) : WConn :=
  { c with out := c.out ++ [.block pb], lastNum := wireUint64 pb.number, lastHash := pb.hash }

/-- The loop over `item.Batch.Batches`, `transports/websockets.go:425-438`: the block being filled, the
early sub-batches, and the ids still missing. The pointer stored in `batches` at line 435 is the
block being filled, so it is stored once the loop is over, if any id was missing. -/
def gather : WsBlock → GMap Hash TSub → GMap Hash Unit → List Hash → WsBlock × GMap Hash TSub × GMap Hash Unit
  | pb, subs, missing, [] => (pb, subs, missing)
  | pb, subs, missing, id :: ids =>
    match subs.get? id with
    | some s => gather (pb.merge s) (subs.erase id) missing ids
    | none => gather pb subs (missing.insert id ()) ids

/-- Case `"batch"`, `transports/websockets.go:409-444`. -/
def WConn.onBatch (c : WConn) (o : MapOrder) (b : TBatch) : WConn :=
  let (pb, subs, missing) := gather b.toPending c.subs GMap.empty ((o.ord 2 b.batches.entries).map Prod.snd)
  if missing.size = 0 then
    { c with subs := subs, pending := c.pending.erase b.hash }.finish pb
  else
    { c with subs := subs, pending := c.pending.insert b.hash missing, batches := c.batches.insert b.hash pb }

/-- Case `"subbatch"`, `transports/websockets.go:445-465`. A missing entry of `pendingSubbatches` is a nil map: deleting
from it does nothing, and its length is zero. -/
def WConn.onSub (c : WConn) (s : TSub) : WConn :=
  match c.batches.get? s.hash with
  | none => { c with subs := c.subs.insert s.batchId s }
  | some pb =>
    let pb := pb.merge s
    let subs := c.subs.erase s.batchId
    match c.pending.get? s.hash with
    | none => { c with subs := subs, batches := c.batches.erase s.hash }.finish pb
    | some m =>
      let m := m.erase s.batchId
      if m.size = 0 then
        { c with subs := subs, pending := c.pending.erase s.hash, batches := c.batches.erase s.hash }.finish pb
      else
        { c with subs := subs, pending := c.pending.insert s.hash m, batches := c.batches.insert s.hash pb }

/-- The `switch item.Type`, `transports/websockets.go:401-466`. -/
def WConn.step (o : MapOrder) (c : WConn) : WMsg → Except Fault WConn
  | .ready => .ok { c with isReady := true }
  | .reorg n h => .ok { c with out := c.out ++ [.reorg (ofUint64 n) h] }
  | .batch b => .ok (c.onBatch o b)
  | .sub s => .ok (c.onSub s)
  | .hollow => .error .panic
  | .unknown => .ok c

/-- The read loop over the decoded items of a connection, `transports/websockets.go:380-467`. -/
def WConn.run (o : Nat → MapOrder) (c : WConn) : List WMsg → Except Fault WConn
  | [] => .ok c
  | m :: ms =>
    match c.step (o 0) m with
    | .error f => .error f
    | .ok d => WConn.run (fun n => o (n + 1)) d ms

/-! ## Frames -/

/-- What arrives on the connection, as far as `transports/websockets.go:380-400` distinguishes it. -/
inductive WFrame where
  /-- an empty message (line 386) -/
  | ping
  /-- a message `json.Unmarshal` cannot read, or a JSON object without the members `method` and `params`: the
  variable `notification` of line 375, shared by all rounds, keeps its value -/
  | junk
  /-- a notification for another method or another subscription (lines 391-398) -/
  | other
  /-- a notification of this subscription -/
  | item (m : WMsg)

/-- The read loop with the variable `notification` (`transports/websockets.go:375,390-400`): `last` is the item
it holds when its method and subscription id are the right ones. -/
def WConn.frames (o : Nat → MapOrder) (c : WConn) (last : Option WMsg) : List WFrame → Except Fault WConn
  | [] => .ok c
  | .ping :: fs => WConn.frames (fun n => o (n + 1)) c last fs
  | .other :: fs => WConn.frames (fun n => o (n + 1)) c none fs
  | .item m :: fs =>
    match c.step (o 0) m with
    | .error f => .error f
    | .ok d => WConn.frames (fun n => o (n + 1)) d (some m) fs
  | .junk :: fs =>
    match last with
    | none => WConn.frames (fun n => o (n + 1)) c none fs
    | some m =>
      match c.step (o 0) m with
      | .error f => .error f
      | .ok d => WConn.frames (fun n => o (n + 1)) d (some m) fs

/-! ## The server side of a subscription -/

/-- `Streams`, `transports/websockets.go:225-296`, for one subscriber. `chain` is what `AddBlock` was called with
so far, `pos` how much of it `BlocksFrom` has handed out, and `sent` what went into `subch`. -/
inductive WPhase where
  /-- `for block := range initBlocks` -/
  | init
  /-- `initBlocks` is closed, `feed.Subscribe` has not been called (between lines 268 and 269) -/
  | drained
  /-- after `feed.Subscribe` (line 269) -/
  | live
deriving DecidableEq

/-- The state of one subscription. Blocks are represented by their hashes. -/
structure WStream where
  chain : List Hash
  pos : Nat
  sent : List Hash
  phase : WPhase

/-- One step. `BlocksFrom` is code of the application (`transports/websockets.go:23-30`); it is taken to hand out the stored
blocks one after the other and to close the channel when it has handed out all there are. A block
is stored by the application when it calls `AddBlock`. -/
inductive WStream.Step : WStream → WStream → Prop
  /-- lines 236-267 -/
  | initial {s h} : s.phase = .init → s.chain[s.pos]? = some h →
      WStream.Step s { s with pos := s.pos + 1, sent := s.sent ++ [h] }
  /-- line 236, the channel is closed -/
  | drained {s} : s.phase = .init → s.pos = s.chain.length → WStream.Step s { s with phase := .drained }
  /-- line 269 -/
  | subscribe {s} : s.phase = .drained → WStream.Step s { s with phase := .live }
  /-- `AddBlock` while not subscribed: `feed.Send` does not reach `subch` -/
  | added {s} (h : Hash) : s.phase ≠ .live → WStream.Step s { s with chain := s.chain ++ [h] }
  /-- `AddBlock` while subscribed -/
  | addedLive {s} (h : Hash) : s.phase = .live → WStream.Step s { s with chain := s.chain ++ [h], sent := s.sent ++ [h] }

/-- A subscription from the start of `chain`. -/
def WStream.start (chain : List Hash) : WStream := ⟨chain, 0, [], .init⟩

/-- Reflexive transitive closure. -/
inductive WStream.Steps : WStream → WStream → Prop
  | refl {s} : WStream.Steps s s
  | tail {s t u} : WStream.Steps s t → WStream.Step t u → WStream.Steps s u

end Verif
