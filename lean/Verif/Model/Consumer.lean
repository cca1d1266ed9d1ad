import Verif.Model.Producer
import Verif.Model.Path
/-!
# `delivery/consumer.go`

Left out: metrics, logging, message times. A Go slice expression `key[a:b]` is modelled with capacity equal to
length (so it panics exactly when `b` exceeds the length).
-/
namespace Verif

/-- `PendingBatch`, `delivery/consumer.go:26-42`. `Weight` comes from `SetBytes`, so it is non-negative.
`waitCh` is the identity of the channel (`none` is `nil`). `frp` is `failedReconstructPanic`. -/
structure PB where
  number : Int
  weight : Nat
  parentHash : Hash
  hash : Hash
  values : GMap GoStr Bytes
  deletes : GMap GoStr Unit
  resumption : GMap GoStr Int
  resumptionDefaults : GMap GoStr Int
  prefixes : GMap GoStr Int
  batches : GMap Hash (List Bool)
  pendingBatches : GMap Hash Unit
  pendingMessages : GMap Bytes RMsg
  waitCh : Option Nat
  frp : Bool

/-- Decimal digits of a number, most significant first (`fmt` of an integer). -/
def natDigits (n : Nat) : GoStr :=
  if n < 10 then [UInt8.ofNat (48 + n)] else natDigits (n / 10) ++ [UInt8.ofNat (48 + n % 10)]

/-- `%v` of an int64; byte 45 is '-'. -/
def intDigits (i : Int) : GoStr := if i < 0 then 45 :: natDigits i.natAbs else natDigits i.natAbs

/-- `strings.Join(l, sep)` for a one-byte separator. -/
def joinWith (sep : UInt8) : List GoStr → GoStr
  | [] => []
  | [s] => s
  | s :: t :: ss => s ++ sep :: joinWith sep (t :: ss)

/-- `PendingBatch.Resumption`, `delivery/consumer.go:44-55`; byte 61 is '=', 59 is ';'. Sites 0 and 1 are the two
`range` loops. -/
def PB.resumptionString (o : MapOrder) (pb : PB) : GoStr :=
  let fmt := fun (e : GoStr × Int) => e.1 ++ 61 :: intDigits e.2
  joinWith 59
    ((o.ord 0 pb.resumption.entries).map fmt ++
     ((o.ord 1 pb.resumptionDefaults.entries).filter (fun e => !pb.resumption.contains e.1)).map fmt)

/-- `PendingBatch.updateResumption`, `delivery/consumer.go:57-59`: keep the smallest offset. -/
def PB.updateResumption (pb : PB) (source : GoStr) (offset : Int) : PB :=
  match pb.resumption.get? source with
  | none => { pb with resumption := pb.resumption.insert source offset }
  | some o => if o > offset then { pb with resumption := pb.resumption.insert source offset } else pb

/-- `PendingBatch.Ready`, `delivery/consumer.go:61-73`. The order of the two `range` loops does not matter. -/
def PB.ready (pb : PB) : Bool :=
  pb.pendingBatches.entries.isEmpty
  && pb.prefixes.entries.all (fun e => !(e.2 > 0))
  && pb.batches.entries.all (fun e => e.2.all id)

/-- The answers of `PendingBatch.whyNotReady`. -/
inductive Why where
  | pendingBatches
  | pendingPrefix (p : GoStr)
  | ready
deriving DecidableEq

/-- `PendingBatch.whyNotReady`, `delivery/consumer.go:89-100`. The third loop formats a string and throws it
away (no `return`), so it has no effect. Site 0 is the loop over the prefixes. -/
def PB.whyNotReady (o : MapOrder) (pb : PB) : Why :=
  if !pb.pendingBatches.entries.isEmpty then .pendingBatches
  else match (o.ord 0 pb.prefixes.entries).find? (fun e => e.2 > 0) with
    | some e => .pendingPrefix e.1
    | none => .ready

/-- The loop of `DecPrefixCounter`, `delivery/consumer.go:158-172`, `fuel` bounding the rounds (`hang`
when exhausted; `Props` shows the fuel suffices for every relative path and that rooted paths do not return in
any number of rounds). -/
def decPrefixLoop (frp : Bool) (prefixes : GMap GoStr Int) : Nat → GoStr → Except Fault (GMap GoStr Int × Bool)
  | 0, _ => .error .hang
  | fuel + 1, d =>
    if d = Path.dot then .ok (prefixes, false)
    else
      let k := Path.dirKey d
      match prefixes.get? k with
      | some v =>
        if v > 0 then .ok (prefixes.insert k (v - 1), true)
        else if v = 0 ∧ frp then .error .panic
        else decPrefixLoop frp prefixes fuel (Path.dir d)
      | none => decPrefixLoop frp prefixes fuel (Path.dir d)

/-- `PendingBatch.DecPrefixCounter`, `delivery/consumer.go:152-173`, on the `prefixes` map. -/
def decPrefix (frp : Bool) (prefixes : GMap GoStr Int) (p : GoStr) : Except Fault (GMap GoStr Int × Bool) :=
  match prefixes.get? p with
  | some v => if v > 0 then .ok (prefixes.insert p (v - 1), true) else decPrefixLoop frp prefixes (p.length + 2) p
  | none => decPrefixLoop frp prefixes (p.length + 2) p

/-- `s[i] = true` on a slice of known length. -/
def setTrue (l : List Bool) (i : Nat) : List Bool := l.set i true

/-- The `SubBatchMsgType` case, `delivery/consumer.go:105-126`. -/
def PB.applySubBatchMsg (C : Codec) (pb : PB) (m : RMsg) : Except Fault (PB × Bool) :=
  if m.key.length < 65 then .error .panic
  else
    let batchid := bytesToHash ((m.key.drop 33).take 32)
    match C.decInt (m.key.drop 65) with
    | none => .ok (pb, true)
    | some idx =>
      match pb.batches.get? batchid with
      | none => .ok ({ pb with pendingMessages := pb.pendingMessages.insert m.key m }, false)
      | some bits =>
        if idx < 0 ∨ (bits.length : Int) ≤ idx then .error .panic
        else if bits[idx.toNat]? = some true then .ok (pb, false)
        else match C.decSub m.value with
          | none => .ok (pb, false)
          | some update =>
            .ok ({ pb with
              deletes := update.delete.foldl (fun d k => d.insert k ()) pb.deletes
              values := update.updates.entries.foldl (fun vs e => vs.insert e.1 e.2) pb.values
              batches := pb.batches.insert batchid (setTrue bits idx.toNat) }, true)

/-- The `BatchMsgType` case, `delivery/consumer.go:127-136`. -/
def PB.applyBatchMsg (pb : PB) (m : RMsg) : Except Fault (PB × Bool) :=
  let path := m.key.drop 33
  if ((pb.values.get? path).getD []).length > 0 then .ok (pb, false)
  else match decPrefix pb.frp pb.prefixes path with
    | .error e => .error e
    | .ok (prefixes, true) =>
      .ok ({ pb with prefixes := prefixes, values := pb.values.insert path m.value }, true)
    | .ok (_, false) => .ok ({ pb with pendingMessages := pb.pendingMessages.insert m.key m }, false)

/-- The `BatchDeleteMsgType` case, `delivery/consumer.go:137-145`. -/
def PB.applyDeleteMsg (pb : PB) (m : RMsg) : Except Fault (PB × Bool) :=
  let path := m.key.drop 33
  if pb.deletes.contains path then .ok (pb, false)
  else match decPrefix pb.frp pb.prefixes path with
    | .error e => .error e
    | .ok (prefixes, true) =>
      .ok ({ pb with prefixes := prefixes, deletes := pb.deletes.insert path () }, true)
    | .ok (_, false) => .ok ({ pb with pendingMessages := pb.pendingMessages.insert m.key m }, false)

/-- `PendingBatch.ApplyMessage`, `delivery/consumer.go:102-150`. Only called with keys of at least 33 bytes.
The `range` over `update.Updates` inserts distinct keys, so its order does not matter. -/
def PB.applyMessage (C : Codec) (pb : PB) (m : RMsg) : Except Fault (PB × Bool) :=
  let pb := pb.updateResumption m.source m.offset
  match m.key with
  | [] => .error .panic
  | t :: _ =>
    if t = SubBatchMsgType then pb.applySubBatchMsg C m
    else if t = BatchMsgType then pb.applyBatchMsg m
    else if t = BatchDeleteMsgType then pb.applyDeleteMsg m
    else .ok (pb, true)

/-- `Waiter`, `delivery/consumer.go:230-235`. -/
structure WaiterMsg where
  hash : Hash
  parent : Hash
  number : Int
  waitCh : Nat
deriving DecidableEq

/-- What subscribers of a `MessageProcessor` see (`feed`, `reorgFeed`, `waitFeed`). -/
inductive MPOut where
  | waiter (w : WaiterMsg)
  | batch (pb : PB)
  | reorg (num : Int) (hash : Hash)

/-- `MessageProcessor`, `delivery/consumer.go:187-201`. `tracked k` says that one of `trackedPrefixes` matches
`k`. `nextCh` numbers freshly made channels. `log` is the sequence of everything sent to the feeds so far and
`tick` counts map iterations, so that every `range` gets an order of its own; both are only bookkeeping.
`evictCh` is external input of each call (see `Env`). -/
structure MP where
  lastEmittedNum : Int
  reorgThreshold : Int
  pendingBatches : GMap Hash PB
  pendingMessages : GMap Hash (GMap Bytes RMsg)
  tracked : GoStr → Bool
  oldBlocks : GMap Hash Unit
  completed : LRU Hash
  resumption : GMap GoStr Int
  frp : Bool
  nextCh : Nat
  tick : Nat
  log : List MPOut

/-- `ConsumerConfig`, `delivery/types.go:11-19`. A nil `Whitelist` is the empty map
(`delivery/ordering.go:41-43`); weights are non-negative. -/
structure Config where
  lastEmittedNum : Int
  lastHash : Hash
  lastWeight : Nat
  reorgThreshold : Int
  tracked : GoStr → Bool
  whitelist : GMap Nat Hash
  frp : Bool

/-- `NewMessageProcessor`, `delivery/consumer.go:208-223`: panics when `lru.New` rejects the size. -/
def newMP (cfg : Config) : Except Fault MP :=
  if 2 * cfg.reorgThreshold ≤ 0 then .error .panic
  else .ok {
    lastEmittedNum := cfg.lastEmittedNum
    reorgThreshold := cfg.reorgThreshold
    pendingBatches := GMap.empty
    pendingMessages := GMap.empty
    tracked := cfg.tracked
    oldBlocks := GMap.empty
    completed := LRU.new (2 * cfg.reorgThreshold).toNat
    resumption := GMap.empty
    frp := cfg.frp
    nextCh := 0
    tick := 0
    log := [] }

/-- Nondeterminism of one run: map iteration orders, and the eviction requests found in `evictCh` by the
`i`-th (possibly nested) execution of `ProcessMessage` (indexed by `tick`). -/
structure Env where
  order : MapOrder
  evict : Nat → List Int

/-- The loop over `pendingBatches` for one request, `delivery/consumer.go:276-281`. -/
def MP.evictOne (mp : MP) (n : Int) : MP :=
  { mp with
    oldBlocks := (mp.pendingBatches.entries.filter (fun e => e.2.number < n)).foldl
      (fun old e => old.insert e.1 ()) mp.oldBlocks
    pendingBatches := mp.pendingBatches.filter (fun _ pb => !(pb.number < n)) }

/-- `EVICTLOOP`, `delivery/consumer.go:272-285`. -/
def MP.drainEvict (mp : MP) (ns : List Int) : MP := ns.foldl MP.evictOne mp

/-- `MessageProcessor.updateResumption`, `delivery/consumer.go:417-419`: keep the largest offset. -/
def MP.updateResumption (mp : MP) (source : GoStr) (offset : Int) : MP :=
  match mp.resumption.get? source with
  | none => { mp with resumption := mp.resumption.insert source offset }
  | some o => if o < offset then { mp with resumption := mp.resumption.insert source offset } else mp

/-- `queueMessage`, `delivery/consumer.go:404-407`. -/
def MP.queueMessage (mp : MP) (hash : Hash) (m : RMsg) : MP :=
  { mp with pendingMessages :=
      mp.pendingMessages.insert hash (((mp.pendingMessages.get? hash).getD GMap.empty).insert m.key m) }

/-- Body of the loop over the header entries, `delivery/consumer.go:341-359`. -/
def PB.headerEntry (tracked : GoStr → Bool) (pb : PB) (e : GoStr × BatchRecord) : PB :=
  if !tracked e.1 then pb
  else
    let pb := if e.2.value.length > 0 then { pb with values := pb.values.insert e.1 e.2.value } else pb
    let pb := if e.2.delete then { pb with deletes := pb.deletes.insert e.1 () } else pb
    let pb := if e.2.count ≠ 0 then { pb with prefixes := pb.prefixes.insert e.1 e.2.count } else pb
    if e.2.subbatch ≠ Hash.zero then { pb with pendingBatches := pb.pendingBatches.insert e.2.subbatch () } else pb

/-- The fresh `PendingBatch`, `delivery/consumer.go:323-340`. -/
def newPB (mp : MP) (hash : Hash) (b : Batch) (m : RMsg) : PB :=
  PB.updateResumption {
    number := b.number
    weight := bytesNat b.weight
    parentHash := b.parentHash
    hash := hash
    values := GMap.empty
    deletes := GMap.empty
    prefixes := GMap.empty
    batches := GMap.empty
    pendingBatches := GMap.empty
    pendingMessages := GMap.empty
    resumption := GMap.empty
    resumptionDefaults := mp.resumption
    waitCh := some mp.nextCh
    frp := mp.frp } m.source m.offset

/-- The emission at the end of `ProcessMessage`, `delivery/consumer.go:394-399`. -/
def MP.finish (mp : MP) (hash : Hash) : MP :=
  match mp.pendingBatches.get? hash with
  | none => mp
  | some b =>
    if b.ready then
      { mp with
        log := mp.log ++ [MPOut.batch b]
        lastEmittedNum := b.number
        completed := (mp.completed.add hash).1
        pendingBatches := mp.pendingBatches.erase hash }
    else mp

/-- Result of a call: the process faults, or the new state and the returned error. -/
abbrev MPResult := Except Fault (MP × Option Err)

/-- The replay loop, `delivery/consumer.go:362-364`; `self` is `ProcessMessage`. -/
def replay (self : MP → RMsg → MPResult) : MP → List RMsg → MPResult
  | mp, [] => .ok (mp, none)
  | mp, m :: ms =>
    match self mp m with
    | .error f => .error f
    | .ok (mp, some e) => .ok (mp, some e)
    | .ok (mp, none) => replay self mp ms

/-- The loop over the messages waiting for a sub-batch header, `delivery/consumer.go:382-386`. It can only
remove or rewrite the entry it is at, so the entries are taken up front. -/
def PB.drain (C : Codec) : PB → List (Bytes × RMsg) → Except Fault PB
  | pb, [] => .ok pb
  | pb, (k, msg) :: rest =>
    match pb.applyMessage C msg with
    | .error f => .error f
    | .ok (pb, true) => PB.drain C { pb with pendingMessages := pb.pendingMessages.erase k } rest
    | .ok (pb, false) => PB.drain C pb rest

/-- What `ProcessMessage` does first: serve the eviction requests and note the offset, `delivery/consumer.go:272-286`. -/
def MP.begin (env : Env) (mp : MP) (m : RMsg) : MP :=
  let mp := (mp.drainEvict (env.evict mp.tick)).updateResumption m.source m.offset
  { mp with tick := mp.tick + 1 }

/-- The `ReorgType` case, `delivery/consumer.go:288-300`. The threshold is positive (`newMP`), so `lru.New`
succeeds. -/
def MP.onReorg (C : Codec) (mp : MP) (m : RMsg) (hash : Hash) : MPResult :=
  let mp := { mp with completed := LRU.new (2 * mp.reorgThreshold).toNat, oldBlocks := GMap.empty }
  match C.decInt m.value with
  | none => .ok (mp, some .decode)
  | some num => .ok ({ mp with lastEmittedNum := num, log := mp.log ++ [MPOut.reorg num hash] }, none)

/-- A new batch header: announce it and create the pending batch, `delivery/consumer.go:316-360`. -/
def MP.addHeader (env : Env) (mp : MP) (m : RMsg) (hash : Hash) (b : Batch) : MP :=
  let pb := (env.order.ord (2 * mp.tick) b.updates.entries).foldl (PB.headerEntry mp.tracked) (newPB mp hash b m)
  { mp with
    log := mp.log ++ [MPOut.waiter ⟨hash, b.parentHash, b.number, mp.nextCh⟩]
    nextCh := mp.nextCh + 1
    pendingBatches := mp.pendingBatches.insert hash pb }

/-- The `BatchType` case, `delivery/consumer.go:305-369` and the emission at the end; `self` is `ProcessMessage`. -/
def MP.onHeader (C : Codec) (env : Env) (self : MP → RMsg → MPResult) (mp : MP) (m : RMsg) (hash : Hash) : MPResult :=
  match C.decBatch m.value with
  | none => .ok (mp, some .decode)
  | some b =>
    if mp.pendingBatches.contains hash then .ok (mp, none)
    else
      let mp := mp.addHeader env m hash b
      match mp.pendingMessages.get? hash with
      | none => .ok (mp.finish hash, none)
      | some q =>
        match replay self mp ((env.order.ord (2 * mp.tick + 1) q.entries).map Prod.snd) with
        | .error f => .error f
        | .ok (mp, some e) => .ok (mp, some e)
        | .ok (mp, none) =>
          .ok (MP.finish { mp with pendingMessages := mp.pendingMessages.erase hash } hash, none)

/-- The pending batch after an expected sub-batch header, `delivery/consumer.go:377-386`. -/
def PB.addSubHeader (C : Codec) (env : Env) (tick : Nat) (pb : PB) (m : RMsg) (batchid : Hash) (counter : Int) :
    Except Fault PB :=
  if counter < 0 then .error .panic
  else
    let pb := { pb with
      pendingBatches := pb.pendingBatches.erase batchid
      batches := pb.batches.insert batchid (List.replicate counter.toNat false) }
    let pb := pb.updateResumption m.source m.offset
    PB.drain C pb (env.order.ord (2 * tick) pb.pendingMessages.entries)

/-- The `SubBatchHeaderType` case, `delivery/consumer.go:370-386` and the emission at the end. -/
def MP.onSubHeader (C : Codec) (env : Env) (mp : MP) (m : RMsg) (hash : Hash) : MPResult :=
  match mp.pendingBatches.get? hash with
  | none => .ok (mp.queueMessage hash m, none)
  | some pb =>
    let batchid := bytesToHash (m.key.drop 33)
    if !pb.pendingBatches.contains batchid then .ok (mp, none)
    else
      match C.decInt m.value with
      | none =>
        .ok ({ mp with pendingBatches :=
          mp.pendingBatches.insert hash { pb with pendingBatches := pb.pendingBatches.erase batchid } }, some .decode)
      | some counter =>
        match pb.addSubHeader C env mp.tick m batchid counter with
        | .error f => .error f
        | .ok pb => .ok (MP.finish { mp with pendingBatches := mp.pendingBatches.insert hash pb } hash, none)

/-- The default case, `delivery/consumer.go:387-393` and the emission at the end. -/
def MP.onOther (C : Codec) (mp : MP) (m : RMsg) (hash : Hash) : MPResult :=
  match mp.pendingBatches.get? hash with
  | none => .ok (mp.queueMessage hash m, none)
  | some pb =>
    match pb.applyMessage C m with
    | .error f => .error f
    | .ok (pb, _) => .ok (MP.finish { mp with pendingBatches := mp.pendingBatches.insert hash pb } hash, none)

/-- The block hash in a message key, `delivery/consumer.go:287`. -/
def hashOf (key : Bytes) : Hash := bytesToHash ((key.drop 1).take 32)

/-- `MessageProcessor.ProcessMessage`, `delivery/consumer.go:271-401`, with the recursive call for queued
messages (line 363) abstracted as `self`. -/
def MP.step (C : Codec) (env : Env) (self : MP → RMsg → MPResult) (mp : MP) (m : RMsg) : MPResult :=
  let mp := mp.begin env m
  if m.key.length < 33 then .error .panic
  else
    let hash := hashOf m.key
    let t := m.key.headD 0
    if t = ReorgType then mp.onReorg C m hash
    else if mp.completed.contains hash then .ok (mp, none)
    else if mp.oldBlocks.contains hash then .ok (mp, none)
    else if t = BatchType then mp.onHeader C env self m hash
    else if t = SubBatchHeaderType then mp.onSubHeader C env m hash
    else mp.onOther C m hash

/-- `MessageProcessor.ProcessMessage`, `delivery/consumer.go:271-401`. Queued messages are never batch headers
(only lines 372 and 389 queue), so the nesting is at most one level deep; a deeper call would be a `hang` here, and
`Proofs/Consumer.lean` shows it does not occur. -/
def MP.processMessage (C : Codec) (env : Env) (mp : MP) (m : RMsg) : MPResult :=
  MP.step C env (MP.step C env (fun _ _ => .error .hang)) mp m

/-- `MessageProcessor.ProcessCompleteBatch`, `delivery/consumer.go:254-268`. -/
def MP.processCompleteBatch (mp : MP) (pb : PB) : MP :=
  let (pb, next) := match pb.waitCh with
    | none => ({ pb with waitCh := some mp.nextCh }, mp.nextCh + 1)
    | some _ => (pb, mp.nextCh)
  { mp with
    nextCh := next
    log := mp.log ++ [MPOut.waiter ⟨pb.hash, pb.parentHash, pb.number, pb.waitCh.getD 0⟩, MPOut.batch pb]
    lastEmittedNum := pb.number
    completed := (mp.completed.add pb.hash).1
    pendingBatches := mp.pendingBatches.erase pb.hash }

/-- A sequence of `ProcessMessage` calls; errors are returned to the caller, who carries on. -/
def MP.run (C : Codec) (env : Env) : MP → List RMsg → Except Fault MP
  | mp, [] => .ok mp
  | mp, m :: ms =>
    match mp.processMessage C env m with
    | .error f => .error f
    | .ok (mp, _) => MP.run C env mp ms

/-- The blocks sent to `feed`, in order. -/
def MP.emitted (mp : MP) : List PB := mp.log.filterMap (fun
  | .batch pb => some pb
  | _ => none)

/-- Answers of `MessageProcessor.WhyNotReady`. -/
inductive MPWhy where
  | notFound
  | why (w : Why)
deriving DecidableEq

/-- `MessageProcessor.WhyNotReady`, `delivery/consumer.go:409-415`. -/
def MP.whyNotReady (o : MapOrder) (mp : MP) (hash : Hash) : MPWhy :=
  match mp.pendingBatches.get? hash with
  | some pb => .why (pb.whyNotReady o)
  | none => .notFound

end Verif
