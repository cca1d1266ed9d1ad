import Verif.Model.System
/-!
# The subscribers of the feeds

`OrderedMessageProcessor.Subscribe` and `SubscribeReorg` (`delivery/ordering.go:144-162`) hand the caller's channel to one of four
`event.Feed`s. Two of them are sent to by the goroutine of `delivery/ordering.go:66-100` (`updateFeed`, `delivery/ordering.go:275`, and
`reorgFeed`, `delivery/ordering.go:244`) and two by the goroutine calling `ProcessMessage` (`feed` and `waitFeed`,
`delivery/consumer.go:254-401`). Here the two goroutines of `Verif/Model/System.lean` are put together with any number of such
channels, of any capacity, which come and go and are read at any pace.

`event.Feed` belongs to a dependency and is assumed to behave as it documents: "Send delivers to all subscribed channels
simultaneously", that is, it offers the value to every channel subscribed when it starts, each channel accepts it when it has
room (or, if unbuffered, when it is read), and `Send` returns when all have accepted it or are unsubscribed.
-/
namespace Verif

/-- What can be subscribed to: `chan *ChainUpdate`, `chan map[int64]types.Hash`, `chan *PendingBatch` and `chan *Waiter`,
`delivery/ordering.go:144-162`. -/
inductive Kind where
  | updates | reorgs | blocks | waiters
deriving DecidableEq

/-- A value sent on one of the feeds (eviction requests, which are not sent on a feed, appear in `OMP.log` as well; no kind
of channel takes them). -/
inductive Ev where
  | o (x : OOut)
  | c (x : MPOut)

/-- Which feed sends the value: `updateFeed`, `reorgFeed` of the `OrderedMessageProcessor`, `delivery/ordering.go:244,275`;
`feed`, `waitFeed` of the `MessageProcessor`, `delivery/consumer.go:254-401`. The notifications of the
`MessageProcessor` (`delivery/consumer.go:298`) can only be subscribed to by the `OrderedMessageProcessor` itself. -/
def Kind.takes : Kind → Ev → Bool
  | .updates, .o (.update _ _) => true
  | .reorgs, .o (.reorg _ _) => true
  | .blocks, .c (.batch _) => true
  | .waiters, .c (.waiter _) => true
  | _, _ => false

/-- The goroutine which sends: `true` for the one calling `ProcessMessage`. -/
def Kind.byCaller : Kind → Bool
  | .updates | .reorgs => false
  | .blocks | .waiters => true

/-- A subscribed channel: its capacity, what is in its buffer, what has been read from it so far, and the value the feed is
offering to it and it has not accepted yet. `joined` is the number of values its goroutine had sent, on any feed, when it subscribed (bookkeeping);
`live` until it is unsubscribed. -/
structure SubCh where
  kind : Kind
  cap : Nat
  buf : List Ev
  got : List Ev
  due : Option Ev
  joined : Nat
  live : Bool

/-- The start of `Send`: the value is offered to the channels subscribed to the feed. -/
def SubCh.offer (e : Ev) (x : SubCh) : SubCh := if x.live && x.kind.takes e then { x with due := some e } else x

/-- The two goroutines with the subscribers. `opq`: the sends of the event being handled by the ordering goroutine which have not
started; `busy`: the caller's goroutine is sending the first of `sys.out`, which the ordering layer's own channel has not yet accepted;
`begunC`, `begunO`: the sends started so far by the two goroutines (bookkeeping). -/
structure FSys where
  sys : Sys
  opq : List OOut
  busy : Bool
  begunC : List Ev
  begunO : List Ev
  subs : List SubCh

/-- A channel just subscribed. -/
def SubCh.fresh (k : Kind) (cap joined : Nat) : SubCh :=
  { kind := k, cap := cap, buf := [], got := [], due := none, joined := joined, live := true }

/-- The sends started so far by the goroutine which sends this kind. -/
def FSys.begun (s : FSys) (k : Kind) : List Ev := if k.byCaller then s.begunC else s.begunO

/-- No subscriber keeps the goroutine (`true`: the caller's) waiting. -/
def FSys.Free (s : FSys) (caller : Bool) : Prop := ∀ x ∈ s.subs, x.kind.byCaller = caller → x.due = none

/-- What the goroutines and the readers do. -/
inductive FSys.Work (C : Codec) (env : Env) (o : MapOrder) : FSys → FSys → Prop
  /-- the next call starts when the sends of the previous one are done; its first send starts later -/
  | call {s : FSys} {y : Sys} : Sys.Step C env o s.sys y → y.calls ≠ s.sys.calls → s.busy = false → s.Free true →
      Work C env o s { s with sys := y }
  /-- a send of the current call starts, when the one before has returned, `delivery/consumer.go:254-401` -/
  | beginC {s : FSys} {x : MPOut} {rest : List MPOut} : s.sys.out = x :: rest → s.busy = false → s.Free true →
      Work C env o s { s with busy := true, begunC := s.begunC ++ [.c x], subs := s.subs.map (SubCh.offer (.c x)) }
  /-- the ordering layer's channel (`delivery/ordering.go:62-65`) accepts the value being sent -/
  | accept {s : FSys} {y : Sys} : Sys.Step C env o s.sys y → y.calls = s.sys.calls → y.ops = s.sys.ops → s.busy = true →
      Work C env o s { s with sys := y, busy := false }
  /-- the ordering goroutine handles a block or notification, when the one before has been dealt with, `delivery/ordering.go:69-82` -/
  | op {s : FSys} {y : Sys} : Sys.Step C env o s.sys y → y.ops ≠ s.sys.ops → s.opq = [] → s.Free false →
      Work C env o s { s with sys := y, opq := y.omp.log.drop s.sys.omp.log.length }
  /-- a send of the event being handled starts, `delivery/ordering.go:244,275` -/
  | beginO {s : FSys} {x : OOut} {rest : List OOut} : s.opq = x :: rest → s.Free false →
      Work C env o s { s with opq := rest, begunO := s.begunO ++ [.o x], subs := s.subs.map (SubCh.offer (.o x)) }
  /-- a channel with room accepts the value offered -/
  | put {s : FSys} {l r : List SubCh} {x : SubCh} {e : Ev} : s.subs = l ++ x :: r → x.due = some e → x.buf.length < x.cap →
      Work C env o s { s with subs := l ++ { x with buf := x.buf ++ [e], due := none } :: r }
  /-- a reader waiting at an empty channel gets the value offered -/
  | meet {s : FSys} {l r : List SubCh} {x : SubCh} {e : Ev} : s.subs = l ++ x :: r → x.due = some e → x.buf = [] →
      Work C env o s { s with subs := l ++ { x with got := x.got ++ [e], due := none } :: r }
  /-- a reader takes a value from the buffer -/
  | take {s : FSys} {l r : List SubCh} {x : SubCh} {e : Ev} {b : List Ev} : s.subs = l ++ x :: r → x.buf = e :: b →
      Work C env o s { s with subs := l ++ { x with got := x.got ++ [e], buf := b } :: r }

/-- Everything that can happen: the above, and channels being subscribed and unsubscribed. -/
inductive FSys.Step (C : Codec) (env : Env) (o : MapOrder) : FSys → FSys → Prop
  | work {s s' : FSys} : FSys.Work C env o s s' → Step C env o s s'
  /-- `Subscribe`, `SubscribeReorg`, `delivery/ordering.go:144-162`; a send which has started is not offered to the channel -/
  | subscribe {s : FSys} {k : Kind} {cap : Nat} :
      Step C env o s { s with subs := s.subs ++ [.fresh k cap (s.begun k).length] }
  /-- `Unsubscribe`: a value being offered is withdrawn; what is in the buffer can still be read -/
  | unsubscribe {s : FSys} {l r : List SubCh} {x : SubCh} : s.subs = l ++ x :: r →
      Step C env o s { s with subs := l ++ { x with due := none, live := false } :: r }

/-- Any number of steps. -/
inductive FSys.Steps (C : Codec) (env : Env) (o : MapOrder) (s : FSys) : FSys → Prop
  | refl : Steps C env o s s
  | step {s1 s2 : FSys} : Steps C env o s s1 → FSys.Step C env o s1 s2 → Steps C env o s s2

/-- Any number of steps without subscribing and unsubscribing. -/
inductive FSys.Works (C : Codec) (env : Env) (o : MapOrder) (s : FSys) : FSys → Prop
  | refl : Works C env o s s
  | step {s1 s2 : FSys} : Works C env o s s1 → FSys.Work C env o s1 s2 → Works C env o s s2

/-- The state after `NewOrderedMessageProcessor`, before anything is subscribed. -/
def FSys.start (cfg : Config) (todo : List Call) : Except Fault FSys := do
  let s ← Sys.start cfg todo
  .ok { sys := s, opq := [], busy := false, begunC := [], begunO := [], subs := [] }

end Verif
