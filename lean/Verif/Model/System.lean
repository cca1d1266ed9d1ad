import Verif.Model.Ordering
/-!
# The two goroutines

The caller's goroutine runs `ProcessMessage` and `ProcessCompleteBatch`; whatever these send to `mp.feed` and `mp.reorgFeed`
goes into the two buffered channels made in `delivery/ordering.go:62-65`, and the goroutine of `delivery/ordering.go:66-100`
takes blocks and notifications from them, choosing freely when both have something (`select`).

A call is one step, after which its sends are performed one by one, each waiting for room in the channel; the next call
starts when they are done. That is faithful because a call's own state is not touched by the other goroutine: the two
share only the channels, the emitted blocks, which the `MessageProcessor` no longer holds, and the eviction requests. The
latter are read at the start of every (nested) execution of `ProcessMessage`; here they are given by `env.evict` for the whole
execution (see `Genuine`), so that every possible timing of requests is covered. Other subscribers of the feeds are
assumed to receive here; `Verif/Model/Subscribers.lean` adds them.
-/
namespace Verif

/-- A call into the `MessageProcessor`: `ProcessMessage` (`delivery/ordering.go:361-363`) or `ProcessCompleteBatch`
(`delivery/ordering.go:156-158`). -/
inductive Call where
  | msg (m : RMsg)
  | block (pb : PB)

/-- What the call does to the processor. -/
def MP.call (C : Codec) (env : Env) (mp : MP) : Call → Except Fault MP
  | .msg m => match mp.processMessage C env m with
    | .error f => .error f
    | .ok (mp, _) => .ok mp
  | .block pb => .ok (mp.processCompleteBatch pb)

/-- A sequence of calls. -/
def MP.calls (C : Codec) (env : Env) (mp : MP) (cs : List Call) : Except Fault MP := cs.foldlM (MP.call C env) mp

/-- `todo`: calls still to be made; `out`: sends of the current call still to be performed; `ch`, `reorgCh`: the channels of
`delivery/ordering.go:62-63`. `calls` and `ops` list what has been called and handled so far (bookkeeping). -/
structure Sys where
  todo : List Call
  mp : MP
  out : List MPOut
  ch : List PB
  reorgCh : List (Int × Hash)
  omp : OMP
  calls : List Call
  ops : List OOp

/-- The channel capacity, `delivery/ordering.go:62-63`. -/
def chanCap : Nat := 100

/-- One step of one of the goroutines. -/
inductive Sys.Step (C : Codec) (env : Env) (o : MapOrder) : Sys → Sys → Prop
  /-- the caller makes the next call, `delivery/consumer.go:254-401` -/
  | call {s : Sys} {c : Call} {cs : List Call} {mp : MP} : s.todo = c :: cs → s.out = [] → s.mp.call C env c = .ok mp →
      Step C env o s { s with todo := cs, mp := mp, out := mp.log.drop s.mp.log.length, calls := s.calls ++ [c] }
  /-- `mp.feed.Send` puts a block into the channel -/
  | sendBlock {s : Sys} {pb : PB} {rest : List MPOut} : s.out = .batch pb :: rest → s.ch.length < chanCap →
      Step C env o s { s with out := rest, ch := s.ch ++ [pb] }
  /-- `mp.reorgFeed.Send` puts a notification into the channel -/
  | sendReorg {s : Sys} {n : Int} {h : Hash} {rest : List MPOut} : s.out = .reorg n h :: rest → s.reorgCh.length < chanCap →
      Step C env o s { s with out := rest, reorgCh := s.reorgCh ++ [(n, h)] }
  /-- `mp.waitFeed.Send`: the ordering layer does not subscribe -/
  | sendWaiter {s : Sys} {w : WaiterMsg} {rest : List MPOut} : s.out = .waiter w :: rest → Step C env o s { s with out := rest }
  /-- `case pb := <-ch`, `delivery/ordering.go:69-77` -/
  | block {s : Sys} {pb : PB} {rest : List PB} {omp : OMP} : s.ch = pb :: rest → s.omp.op o (.block pb) = .ok omp →
      Step C env o s { s with ch := rest, omp := omp, ops := s.ops ++ [.block pb] }
  /-- `case reorg := <-reorgCh`, `delivery/ordering.go:78-82` -/
  | reorg {s : Sys} {n : Int} {h : Hash} {rest : List (Int × Hash)} {omp : OMP} : s.reorgCh = (n, h) :: rest →
      s.omp.op o (.reorg n h) = .ok omp → Step C env o s { s with reorgCh := rest, omp := omp, ops := s.ops ++ [.reorg n h] }

/-- Any number of steps. -/
inductive Sys.Steps (C : Codec) (env : Env) (o : MapOrder) (s : Sys) : Sys → Prop
  | refl : Steps C env o s s
  | step {s1 s2 : Sys} : Steps C env o s s1 → Sys.Step C env o s1 s2 → Steps C env o s s2

/-- The state after `NewOrderedMessageProcessor`, `delivery/ordering.go:40-65`, with the calls to come. -/
def Sys.start (cfg : Config) (todo : List Call) : Except Fault Sys := do
  let mp ← newMP cfg
  let omp ← newOMP cfg
  .ok { todo := todo, mp := mp, out := [], ch := [], reorgCh := [], omp := omp, calls := [], ops := [] }

/-- The eviction requests seen by the `MessageProcessor` were sent by the ordering layer at some time
(`evictOlderThan`, `delivery/consumer.go:247-252`; requests may also be lost there). -/
def Genuine (env : Env) (s : Sys) : Prop := ∀ t, ∀ n ∈ env.evict t, OOut.evictOlder n ∈ s.omp.log

/-- Everything has been called, sent and handled. -/
def Sys.Drained (s : Sys) : Prop := s.todo = [] ∧ s.out = [] ∧ s.ch = [] ∧ s.reorgCh = []

end Verif
