import Verif.Model.Ordering
/-!
# Missing weights in `delivery/ordering.go`

A weight is a `*big.Int` and may be nil: `ConsumerConfig.LastWeight` is what the application gives, and a websocket message without a
weight yields a block without one (`transports/websockets.go:412`). `Model/Ordering.lean` has a number everywhere; here the functions that look
at weights are modelled with nil. `(*big.Int).Cmp` of two nil pointers is 0 (they are equal as pointers), of one nil pointer a panic.

A block without a weight has 0 in `PB.weight`, which is not looked at; which of the held blocks have none is said by `nils`.
-/
namespace Verif

/-- A block, and whether its `Weight` is not nil (`delivery/consumer.go:28`). -/
structure NPB where
  pb : PB
  weighed : Bool

/-- `OrderedMessageProcessor`, `delivery/ordering.go:23-37`: `nils` are the hashes of blocks in `pending` without a weight, `lastNil` says that
`lastWeight` is nil. -/
structure NOMP where
  s : OMP
  nils : GMap Hash Unit
  lastNil : Bool

/-- `x.Cmp(y)` of `math/big`, as far as `x` and `y` may be nil; whether `x < y`. -/
def nilLt (xNil : Bool) (x : Nat) (yNil : Bool) (y : Nat) : Except Fault Bool :=
  match xNil, yNil with
  | true, true => .ok false
  | false, false => .ok (decide (x < y))
  | _, _ => .error .panic

/-- `getPendingChainDifficulty`, `delivery/ordering.go:314-332`: the weight, and whether it is nil. -/
def nilDifficultyAux (queued : GMap Hash (GMap Hash Unit)) (pending : GMap Hash PB) (nils : GMap Hash Unit) :
    Nat → Hash → Except Fault (Nat × Bool)
  | 0, _ => .error .hang
  | fuel + 1, hash =>
    match queued.get? hash with
    | none => .ok (match pending.get? hash with
      | some pb => (pb.weight, nils.contains hash)
      | none => (0, false))
    | some children => do
      let max ← children.keys.foldlM (fun max child => do
        let weight ← nilDifficultyAux queued pending nils fuel child
        let less ← nilLt false max weight.2 weight.1
        .ok (if less then weight.1 else max)) 0
      .ok (max, false)

/-- `getPendingChild`, `delivery/ordering.go:295-310`. -/
def NOMP.getPendingChild (o : MapOrder) (n : NOMP) (hash : Hash) : Except Fault (Option Hash) :=
  match n.s.queued.get? hash with
  | none => .ok none
  | some children => do
    let r ← ((o.ord n.s.tick children.entries).map Prod.fst).foldlM (fun (acc : Nat × Hash) child => do
      let td ← nilDifficultyAux n.s.queued n.s.pending n.nils (n.s.queued.size + 2) child
      let less ← nilLt false acc.1 td.2 td.1
      .ok (if less then (td.1, child) else acc)) (0, Hash.zero)
    .ok (some r.2)

/-- The loop of `prepareEmit`, `delivery/ordering.go:255-265`. -/
def NOMP.emitLoop (o : MapOrder) : Nat → NOMP → List PB → Except Fault (NOMP × List PB)
  | 0, _, _ => .error .hang
  | fuel + 1, n, new => do
    match ← n.getPendingChild o n.s.lastHash with
    | none => .ok (n, new)
    | some hash =>
      let s := { n.s with tick := n.s.tick + 1 }
      match s.pending.get? hash with
      | none => .error .panic
      | some pb => do
        let s ← s.finishSiblings o pb
        let s := { s with lastHash := pb.hash, lastWeight := pb.weight }
        let s ← s.finAdd o pb.hash
        NOMP.emitLoop o fuel ⟨s, n.nils, n.nils.contains hash⟩ (new ++ [pb])

/-- `prepareEmit`, `delivery/ordering.go:247-276`; `isNil` says that the weight of the last new block, if any, is nil. -/
def NOMP.prepareEmit (o : MapOrder) (n : NOMP) (new old : List PB) (isNil : Bool) : Except Fault NOMP := do
  let s ← n.s.emitStart o new
  let r ← NOMP.emitLoop o (s.queued.size + 2) ⟨s, n.nils, if new = [] then n.lastNil else isNil⟩ new
  .ok { r.1 with s := { r.1.s with log := r.1.s.log ++ [.update r.2 old] } }

/-- The branch of `HandlePendingBatch` for a block whose parent is finished, `delivery/ordering.go:194-218`. The last of the blocks that
`prepareReorg` adds is `pb`. -/
def NOMP.onConnected (o : MapOrder) (rec : NOMP → PB → Except Fault NOMP) (n : NOMP) (pb : PB) (isNil : Bool) : Except Fault NOMP := do
  let heavier ← match n.s.pending.get? n.s.lastHash with
    | none => .ok none
    | some lastBlock => do
      let more ← nilLt n.lastNil n.s.lastWeight isNil pb.weight
      .ok (if more then some lastBlock else none)
  match heavier with
  | some lastBlock =>
    match ← prepareReorg n.s.pending pb lastBlock with
    | .ok removed added => n.prepareEmit o added removed isNil
    | .missing last => .ok { n with s := n.s.queue last }
    | .noAncestor => .ok n
  | none =>
    let s ← n.s.finAdd o pb.hash
    let n := { n with s := s }
    match ← n.getPendingChild o pb.hash with
    | none => .ok { n with s := n.s.queue pb }
    | some child =>
      let n := { n with s := { n.s with tick := n.s.tick + 1 } }
      match n.s.pending.get? child with
      | none => .ok { n with s := n.s.queue pb }
      | some c => do
        let n ← rec n c
        .ok { n with s := n.s.queue pb }

/-- The last branch of `HandlePendingBatch`, for a block whose parent is unknown, `delivery/ordering.go:220-232`. -/
def NOMP.onUnconnected (o : MapOrder) (n : NOMP) (pb : PB) (isNil : Bool) : Except Fault NOMP := do
  let lighter ← nilLt isNil pb.weight n.lastNil n.s.lastWeight
  if lighter then
    if n.s.tooOld pb then
      .ok { n with s := { n.s with pending := n.s.pending.erase pb.hash } }
    else do
      let s ← n.s.finAdd o pb.hash
      .ok { n with s := s.queue pb }
  else .ok { n with s := n.s.queue pb }

/-- `HandlePendingBatch` after the exclusion tests and `omp.pending[pb.Hash] = pb`, `delivery/ordering.go:178-233`. -/
def NOMP.accept (o : MapOrder) (rec : NOMP → PB → Except Fault NOMP) (n : NOMP) (pb : PB) (isNil reorg : Bool) : Except Fault NOMP :=
  if n.s.finished.contains pb.hash && !reorg then .ok n
  else if pb.parentHash = n.s.lastHash then n.prepareEmit o [pb] [] isNil
  else if n.s.initEmpty && n.s.finished.len < 10 && !n.s.finished.contains pb.parentHash then n.prepareEmit o [pb] [] isNil
  else if n.s.finished.contains pb.parentHash then n.onConnected o rec pb isNil
  else n.onUnconnected o pb isNil

/-- `HandlePendingBatch`, `delivery/ordering.go:164-234`. -/
def NOMP.handleAux (o : MapOrder) : Nat → NOMP → NPB → Bool → Except Fault NOMP
  | 0, _, _, _ => .error .hang
  | fuel + 1, n, b, reorg =>
    if n.s.excludes b.pb then .ok { n with s := { n.s with blacklist := n.s.blacklist.insert b.pb.hash () } }
    else NOMP.accept o (fun n c => NOMP.handleAux o fuel n ⟨c, !n.nils.contains c.hash⟩ true)
      { n with s := { n.s with pending := n.s.pending.insert b.pb.hash b.pb },
               nils := if b.weighed then n.nils.erase b.pb.hash else n.nils.insert b.pb.hash () } b.pb (!b.weighed) reorg

/-- `HandlePendingBatch(pb, false)` as called by the goroutine, `delivery/ordering.go:77`. -/
def NOMP.handle (o : MapOrder) (n : NOMP) (b : NPB) : Except Fault NOMP :=
  NOMP.handleAux o (n.s.queued.size + 2) n b false

/-- Events: a block, perhaps without a weight, or a reorg notification (`delivery/ordering.go:66-100`). -/
inductive NOp where
  | block (b : NPB)
  | reorg (num : Int) (hash : Hash)

/-- One round of the goroutine loop, `delivery/ordering.go:66-100`. -/
def NOMP.op (o : MapOrder) (n : NOMP) : NOp → Except Fault NOMP
  | .block b => n.handle o b
  | .reorg num hash => .ok { n with s := n.s.handleReorg num hash }

/-- A history of events. -/
def NOMP.run (o : MapOrder) (n : NOMP) (ops : List NOp) : Except Fault NOMP := ops.foldlM (NOMP.op o) n

/-- `NewOrderedMessageProcessor`, `delivery/ordering.go:40-61`; `weighed` says that `cfg.LastWeight` is not nil. -/
def newNOMP (cfg : Config) (weighed : Bool) : Except Fault NOMP :=
  match newOMP cfg with
  | .error f => .error f
  | .ok s => .ok ⟨s, GMap.empty, !weighed⟩

/-- What the event is for `Model/Ordering.lean`. -/
def NOp.plain : NOp → OOp
  | .block b => .block b.pb
  | .reorg num hash => .reorg num hash

end Verif
