import Verif.Model.Consumer
/-!
# `delivery/ordering.go`

Recursive functions carry fuel taken from the state (`size + 2` of the map they walk); running out of it is
`Fault.hang`. `Proofs/Ordering*.lean` shows that this does not happen when block numbers increase by one along
parent links. Left out: metrics, logging, the 250 ms quit poll and `Close`.
-/
namespace Verif

/-- What leaves the ordering layer: chain updates and reorg notifications (feeds), and requests to the
`MessageProcessor` (`mp.evictOlderThan`). -/
inductive OOut where
  | update (added removed : List PB)
  | reorg (num : Int) (hash : Hash)
  | evictOlder (n : Int)

/-- `OrderedMessageProcessor`, `delivery/ordering.go:23-37`. `tick` and `log` as in `MP`. -/
structure OMP where
  lastHash : Hash
  lastWeight : Nat
  reorgThreshold : Int
  pending : GMap Hash PB
  queued : GMap Hash (GMap Hash Unit)
  finished : LRU Hash
  whitelist : GMap Nat Hash
  blacklist : GMap Hash Unit
  initEmpty : Bool
  tick : Nat
  log : List OOut

/-- `evict`, `delivery/ordering.go:104-119`. Every call that does something removes a pending entry first. -/
def OMP.evictAux (o : MapOrder) : Nat → OMP → Hash → Except Fault OMP
  | 0, _, _ => .error .hang
  | fuel + 1, s, hash =>
    match s.pending.get? hash with
    | none => .ok s
    | some pb => do
      let s := { s with pending := s.pending.erase pb.hash, log := s.log ++ [.evictOlder pb.number] }
      let s ← OMP.evictAux o fuel s pb.parentHash
      match s.queued.get? pb.hash with
      | none => .ok s
      | some children => do
        let kids := (o.ord s.tick children.entries).map Prod.fst
        let s ← kids.foldlM
          (fun s c => if s.finished.contains c then .ok s else OMP.evictAux o fuel s c)
          { s with tick := s.tick + 1 }
        .ok { s with queued := s.queued.erase pb.hash }

/-- `evict`, `delivery/ordering.go:104-119`. -/
def OMP.evict (o : MapOrder) (s : OMP) (hash : Hash) : Except Fault OMP :=
  OMP.evictAux o (s.pending.size + 1) s hash

/-- `omp.finished.Add(hash, struct{}{})`: when the cache evicts a hash, its callback
(`delivery/ordering.go:57-60`) runs after the cache was updated. -/
def OMP.finAdd (o : MapOrder) (s : OMP) (hash : Hash) : Except Fault OMP :=
  let r := s.finished.add hash
  let s := { s with finished := r.1 }
  match r.2 with
  | none => .ok s
  | some k => s.evict o k

/-- `queue`, `delivery/ordering.go:236-239`. -/
def OMP.queue (s : OMP) (pb : PB) : OMP :=
  { s with queued :=
      s.queued.insert pb.parentHash (((s.queued.get? pb.parentHash).getD GMap.empty).insert pb.hash ()) }

/-- `finishPendingChildren`, `delivery/ordering.go:286-291`. Go reads `queued[hash]` before `finished.Add`, and inner maps
are never shrunk, so the loop walks the children read at the start. -/
def OMP.finishPendingChildrenAux (o : MapOrder) : Nat → OMP → Hash → Except Fault OMP
  | 0, _, _ => .error .hang
  | fuel + 1, s, hash => do
    let pendingChildren := s.queued.get? hash
    let s ← s.finAdd o hash
    match pendingChildren with
    | none => .ok s
    | some children =>
      ((o.ord s.tick children.entries).map Prod.fst).foldlM
        (fun s c => OMP.finishPendingChildrenAux o fuel s c) { s with tick := s.tick + 1 }

/-- `finishPendingChildren`, `delivery/ordering.go:286-291`. -/
def OMP.finishPendingChildren (o : MapOrder) (s : OMP) (hash : Hash) : Except Fault OMP :=
  OMP.finishPendingChildrenAux o (s.queued.size + 2) s hash

/-- `finishSiblings`, `delivery/ordering.go:278-284`. -/
def OMP.finishSiblings (o : MapOrder) (s : OMP) (pb : PB) : Except Fault OMP :=
  match s.queued.get? pb.parentHash with
  | none => .ok s
  | some siblings =>
    ((o.ord s.tick siblings.entries).map Prod.fst).foldlM
      (fun s h => if h ≠ pb.hash then s.finishPendingChildren o h else .ok s) { s with tick := s.tick + 1 }

/-- `getPendingChainDifficulty`, `delivery/ordering.go:314-332`: a maximum, so the iteration order is irrelevant. -/
def chainDifficultyAux (queued : GMap Hash (GMap Hash Unit)) (pending : GMap Hash PB) :
    Nat → Hash → Except Fault Nat
  | 0, _ => .error .hang
  | fuel + 1, hash =>
    match queued.get? hash with
    | none => .ok (match pending.get? hash with
      | some pb => pb.weight
      | none => 0)
    | some children =>
      children.keys.foldlM (fun max child => do
        let weight ← chainDifficultyAux queued pending fuel child
        .ok (if max < weight then weight else max)) 0

/-- `getPendingChainDifficulty`, `delivery/ordering.go:314-332`. -/
def OMP.chainDifficulty (s : OMP) (hash : Hash) : Except Fault Nat :=
  chainDifficultyAux s.queued s.pending (s.queued.size + 2) hash

/-- `getPendingChild`, `delivery/ordering.go:295-310`: `none` is `ok = false`; the zero hash is returned when no child
has a positive chain difficulty. -/
def OMP.getPendingChild (o : MapOrder) (s : OMP) (hash : Hash) : Except Fault (Option Hash) :=
  match s.queued.get? hash with
  | none => .ok none
  | some children => do
    let r ← ((o.ord s.tick children.entries).map Prod.fst).foldlM (fun (acc : Nat × Hash) child => do
      let td ← s.chainDifficulty child
      .ok (if acc.1 < td then (td, child) else acc)) (0, Hash.zero)
    .ok (some r.2)

/-- The loop of `prepareEmit`, `delivery/ordering.go:255-265`; returns the extended `new`. -/
def OMP.emitLoop (o : MapOrder) : Nat → OMP → List PB → Except Fault (OMP × List PB)
  | 0, _, _ => .error .hang
  | fuel + 1, s, new => do
    match ← s.getPendingChild o s.lastHash with
    | none => .ok (s, new)
    | some hash =>
      let s := { s with tick := s.tick + 1 }
      match s.pending.get? hash with
      | none => .error .panic
      | some pb => do
        let s ← s.finishSiblings o pb
        let s := { s with lastHash := pb.hash, lastWeight := pb.weight }
        let s ← s.finAdd o pb.hash
        OMP.emitLoop o fuel s (new ++ [pb])

/-- The start of `prepareEmit`, `delivery/ordering.go:248-254`. -/
def OMP.emitStart (o : MapOrder) (s : OMP) (new : List PB) : Except Fault OMP :=
  match new.getLast? with
  | none => .ok s
  | some newest => do
    let s := { s with lastHash := newest.hash, lastWeight := newest.weight }
    let s ← s.finishSiblings o newest
    s.finAdd o newest.hash

/-- `prepareEmit`, `delivery/ordering.go:247-276`. -/
def OMP.prepareEmit (o : MapOrder) (s : OMP) (new old : List PB) : Except Fault OMP := do
  let s ← s.emitStart o new
  let r ← s.emitLoop o (s.queued.size + 2) new
  .ok { r.1 with log := r.1.log ++ [.update r.2 old] }

/-- Outcome of `prepareReorg`. -/
inductive ReorgResult where
  /-- `nil` error -/
  | ok (removed added : List PB)
  /-- "missing from history": the last of `newBlocks` is queued first (line 345) -/
  | missing (last : PB)
  /-- "Reached genesis without finding common ancestor" -/
  | noAncestor

/-- The inner loop of `prepareReorg`, `delivery/ordering.go:341-349`: `none` when a block is missing. -/
def reorgInner (pending : GMap Hash PB) (oldNumber : Int) :
    Nat → PB → List PB → Except Fault (Option (PB × List PB))
  | 0, _, _ => .error .hang
  | fuel + 1, newHead, newBlocks =>
    if newHead.number > oldNumber + 1 then
      match pending.get? newHead.parentHash with
      | none => .ok none
      | some p => reorgInner pending oldNumber fuel p (p :: newBlocks)
    else .ok (some (newHead, newBlocks))

/-- The outer loop of `prepareReorg`, `delivery/ordering.go:340-358`. `newBlocks` always ends in the block the
call started with, which is the one queued on failure. -/
def reorgOuter (pending : GMap Hash PB) (start : PB) :
    Nat → PB → PB → List PB → List PB → Except Fault ReorgResult
  | 0, _, _, _, _ => .error .hang
  | fuel + 1, newHead, oldHead, reverted, newBlocks => do
    match ← reorgInner pending oldHead.number (pending.size + 2) newHead newBlocks with
    | none => .ok (.missing start)
    | some (newHead, newBlocks) =>
      if oldHead.hash = newHead.parentHash then .ok (.ok reverted newBlocks)
      else
        match pending.get? oldHead.parentHash with
        | none => .ok .noAncestor
        | some oldHead' => reorgOuter pending start fuel newHead oldHead' (oldHead :: reverted) newBlocks

/-- `prepareReorg`, `delivery/ordering.go:334-359` (only called with a non-nil old head). -/
def prepareReorg (pending : GMap Hash PB) (newHead oldHead : PB) : Except Fault ReorgResult :=
  reorgOuter pending newHead (pending.size + 2) newHead oldHead [] [newHead]

/-- `uint64(n)` of an int64. -/
def toUint64 (n : Int) : Nat := (n % 18446744073709551616).toNat

/-- The two exclusion tests of `HandlePendingBatch`, `delivery/ordering.go:165-176`. -/
def OMP.excludes (s : OMP) (pb : PB) : Bool :=
  (match s.whitelist.get? (toUint64 pb.number) with
    | some h => decide (h ≠ pb.hash)
    | none => false) || s.blacklist.contains pb.parentHash

/-- The branch of `HandlePendingBatch` for a block whose parent is finished, `delivery/ordering.go:194-218`; `rec` is the
recursive call `HandlePendingBatch(_, true)`. -/
def OMP.onConnected (o : MapOrder) (rec : OMP → PB → Except Fault OMP) (s : OMP) (pb : PB) : Except Fault OMP :=
  match s.pending.get? s.lastHash, decide (s.lastWeight < pb.weight) with
  | some lastBlock, true => do
    match ← prepareReorg s.pending pb lastBlock with
    | .ok removed added => s.prepareEmit o added removed
    | .missing last => .ok (s.queue last)
    | .noAncestor => .ok s
  | _, _ => do
    let s ← s.finAdd o pb.hash
    match ← s.getPendingChild o pb.hash with
    | none => .ok (s.queue pb)
    | some child =>
      let s := { s with tick := s.tick + 1 }
      match s.pending.get? child with
      | none => .ok (s.queue pb)
      | some c => do
        let s ← rec s c
        .ok (s.queue pb)

/-- The block is more than the reorg threshold below the head, `delivery/ordering.go:224`. -/
def OMP.tooOld (s : OMP) (pb : PB) : Bool :=
  match s.pending.get? s.lastHash with
  | some latest => decide (latest.number - pb.number > s.reorgThreshold)
  | none => false

/-- The last branch of `HandlePendingBatch`, for a block whose parent is unknown, `delivery/ordering.go:220-232`. -/
def OMP.onUnconnected (o : MapOrder) (s : OMP) (pb : PB) : Except Fault OMP :=
  if pb.weight < s.lastWeight then
    if s.tooOld pb then
      .ok { s with pending := s.pending.erase pb.hash }
    else do
      let s ← s.finAdd o pb.hash
      .ok (s.queue pb)
  else .ok (s.queue pb)

/-- `HandlePendingBatch` after the exclusion tests and `omp.pending[pb.Hash] = pb`, `delivery/ordering.go:178-233`. -/
def OMP.accept (o : MapOrder) (rec : OMP → PB → Except Fault OMP) (s : OMP) (pb : PB) (reorg : Bool) : Except Fault OMP :=
  if s.finished.contains pb.hash && !reorg then .ok s
  else if pb.parentHash = s.lastHash then s.prepareEmit o [pb] []
  else if s.initEmpty && s.finished.len < 10 && !s.finished.contains pb.parentHash then s.prepareEmit o [pb] []
  else if s.finished.contains pb.parentHash then s.onConnected o rec pb
  else s.onUnconnected o pb

/-- `HandlePendingBatch`, `delivery/ordering.go:164-234`. -/
def OMP.handleAux (o : MapOrder) : Nat → OMP → PB → Bool → Except Fault OMP
  | 0, _, _, _ => .error .hang
  | fuel + 1, s, pb, reorg =>
    if s.excludes pb then .ok { s with blacklist := s.blacklist.insert pb.hash () }
    else OMP.accept o (fun s c => OMP.handleAux o fuel s c true) { s with pending := s.pending.insert pb.hash pb } pb reorg

/-- `HandlePendingBatch(pb, false)` as called by the goroutine, `delivery/ordering.go:77`. -/
def OMP.handle (o : MapOrder) (s : OMP) (pb : PB) : Except Fault OMP :=
  OMP.handleAux o (s.queued.size + 2) s pb false

/-- `HandleReorg`, `delivery/ordering.go:241-245`. -/
def OMP.handleReorg (s : OMP) (num : Int) (hash : Hash) : OMP :=
  { s with lastHash := hash, log := s.log ++ [.reorg num hash] }

/-- The state built by `NewOrderedMessageProcessor`, `delivery/ordering.go:40-61`
(`NewMessageProcessor` panics for non-positive thresholds). -/
def newOMP (cfg : Config) : Except Fault OMP :=
  if 2 * cfg.reorgThreshold ≤ 0 then .error .panic
  else .ok {
    lastHash := cfg.lastHash
    lastWeight := cfg.lastWeight
    reorgThreshold := cfg.reorgThreshold
    pending := GMap.empty
    queued := GMap.empty
    finished := ((LRU.new (2 * cfg.reorgThreshold).toNat).add cfg.lastHash).1
    whitelist := cfg.whitelist
    blacklist := GMap.empty
    initEmpty := cfg.lastHash = Hash.zero
    tick := 0
    log := [] }

/-- The two kinds of events of the goroutine loop, `delivery/ordering.go:66-100`. -/
inductive OOp where
  | block (pb : PB)
  | reorg (num : Int) (hash : Hash)

/-- One round of the goroutine loop. -/
def OMP.op (o : MapOrder) (s : OMP) : OOp → Except Fault OMP
  | .block pb => s.handle o pb
  | .reorg num hash => .ok (s.handleReorg num hash)

/-- A history of events. -/
def OMP.run (o : MapOrder) (s : OMP) (ops : List OOp) : Except Fault OMP := ops.foldlM (OMP.op o) s

/-- The chain updates sent so far. -/
def OMP.updates (s : OMP) : List (List PB × List PB) := s.log.filterMap (fun
  | .update a r => some (a, r)
  | _ => none)

/-- Answers of `OrderedMessageProcessor.WhyNotReady`. -/
inductive OWhy where
  | done | pendingParent | mp (w : MPWhy)
deriving DecidableEq

/-- `OrderedMessageProcessor.WhyNotReady`, `delivery/ordering.go:374-378`. -/
def OMP.whyNotReady (o : MapOrder) (s : OMP) (mp : MP) (hash : Hash) : OWhy :=
  if s.finished.contains hash then .done
  else if s.pending.contains hash then .pendingParent
  else .mp (mp.whyNotReady o hash)

end Verif
