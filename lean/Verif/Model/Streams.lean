import Verif.Model.Websocket
/-!
# The server side of the websocket transport: subscriptions and the producer

The goroutines that `Streams` makes for each subscription (`transports/websockets.go:225-296`), the library that reads the channel it returns,
and the goroutine that calls `AddBlock`, `SendBatch` and `Reorg` (`:131-191`). `WStream` in `Model/Websocket` is one subscription without channels and
without an end.

Simplifications. One goroutine calls the producer: `expectedBatches` is a map without a lock. `types.Feed` (cardinal-types) is taken to work
as the feed of go-ethereum does: `Send` sends the value once to every channel subscribed when it begins, in any order, waiting for those that are full;
`Unsubscribe` takes a channel out, also out of a `Send` that is under way. The channel `sub.Err()` at `:286` never fires: that of the
null subscription is never written (`transports/null.go:55-57`) and the feed's is closed by `Unsubscribe` only. `Unsubscribe` and the call of `closemu.Lock`
after it are one step; so are the end of `feed.Send` and `RUnlock`. The variable `sub` is written by one goroutine and read by another without
synchronisation at `:286`; a torn read is not modelled. `BlocksFrom` is code of the application: it hands out a list and closes its channel.
-/
namespace Verif

/-- The capacity of `subch`, `transports/websockets.go:230`. -/
def subchCap : Nat := 1000

/-- The number of waiting messages above which the first goroutine pauses, `transports/websockets.go:245`. -/
def subchHigh : Nat := 10

/-- Where the first goroutine of a subscription is, `transports/websockets.go:235-275`. -/
inductive SrvInit where
  /-- in the loop over the stored blocks, with those still to be sent, `:236-267` -/
  | stored (rest : List WMsg)
  /-- it has found `ctx.Err() == nil`, `:268` -/
  | checked
  /-- it has subscribed and is at `subch <- ready`, `:269-272` -/
  | subscribed
  /-- it has called `initwg.Done()`, `:274` -/
  | done

/-- Where the second goroutine is, `transports/websockets.go:276-294`. -/
inductive SrvWatch where
  /-- in `select`, `:278` -/
  | idle
  /-- `<-ctx.Done()` has fired; in `initwg.Wait()`, `:279-280` -/
  | waiting
  /-- it has unsubscribed and called `closemu.Lock()`, `:281-282` -/
  | locking
  /-- it has the lock and is about to call `close(subch)`, `:283` -/
  | locked
  /-- about to call `closemu.Unlock()`, `:284` -/
  | closed
  /-- it has returned, `:285` -/
  | ended
deriving DecidableEq

/-- One subscription: its two goroutines, `subch` and whether it is open, whether the context is done, whether the channel is subscribed to the feed,
whether a `Send` under way has still to send to it, and what the library has read from `subch`. `since` is the number of messages that had been given
to the feed at the time of `Subscribe`, if there was one; no step looks at it. -/
structure SrvStream where
  init : SrvInit
  watch : SrvWatch
  chan : List WMsg
  chanOpen : Bool
  gone : Bool
  sub : Bool
  due : Bool
  got : List WMsg
  since : Option Nat

/-- Where the goroutine that calls the producer is. -/
inductive SrvProd where
  /-- outside of `RLock` and `RUnlock` -/
  | idle
  /-- after `RLock`, before `feed.Send` has begun, `transports/websockets.go:140,166,181` -/
  | holding (m : WMsg)
  /-- in `feed.Send`, `transports/websockets.go:141,167,182` -/
  | sending (m : WMsg)

/-- The server: the subscriptions (the first `n` count), the messages the producer will be asked to send, those given to the feed so far, and where the producer is. -/
structure SrvSys where
  n : Nat
  stream : Nat → SrvStream
  todo : List WMsg
  sent : List WMsg
  prod : SrvProd

/-- Changing one subscription. -/
def SrvSys.upd (s : SrvSys) (i : Nat) (x : SrvStream) : SrvSys := { s with stream := fun j => if j = i then x else s.stream j }

/-- `closemu` is held by a writer. -/
def SrvWatch.holds : SrvWatch → Bool
  | .locked => true
  | .closed => true
  | _ => false

/-- `closemu` is held by a writer or a writer waits for it; both keep new readers out (`sync.RWMutex`). -/
def SrvWatch.excludes (w : SrvWatch) : Bool := w.holds || w == .locking

/-- One step of one goroutine. `leaves i`: the client of subscription `i` will leave at some time. `drains i`: after that the library still reads what is in `subch`. -/
inductive SrvSys.Step (leaves drains : Nat → Bool) : SrvSys → SrvSys → Prop
  /-- a stored block is put on `subch`, `transports/websockets.go:245-266` -/
  | push {s i m rest} : i < s.n → (s.stream i).init = .stored (m :: rest) → ((s.stream i).chan.length ≤ subchHigh ∨ (s.stream i).gone = true) →
      (s.stream i).chan.length < subchCap → (s.stream i).chanOpen = true →
      Step leaves drains s (s.upd i { s.stream i with init := .stored rest, chan := (s.stream i).chan ++ [m] })
  /-- `ctx.Err() == nil`, `transports/websockets.go:268` -/
  | check {s i} : i < s.n → (s.stream i).init = .stored [] → (s.stream i).gone = false →
      Step leaves drains s (s.upd i { s.stream i with init := .checked })
  /-- `ctx.Err() != nil`, `transports/websockets.go:268,274` -/
  | skip {s i} : i < s.n → (s.stream i).init = .stored [] → (s.stream i).gone = true →
      Step leaves drains s (s.upd i { s.stream i with init := .done })
  /-- `feed.Subscribe(subch)`, `transports/websockets.go:269` -/
  | subscribe {s i} : i < s.n → (s.stream i).init = .checked →
      Step leaves drains s (s.upd i { s.stream i with init := .subscribed, sub := true, since := some s.sent.length })
  /-- the message `ready` is put on `subch`, `transports/websockets.go:270-274` -/
  | ready {s i} : i < s.n → (s.stream i).init = .subscribed → (s.stream i).chan.length < subchCap → (s.stream i).chanOpen = true →
      Step leaves drains s (s.upd i { s.stream i with init := .done, chan := (s.stream i).chan ++ [.ready] })
  /-- `<-ctx.Done()`, `transports/websockets.go:279` -/
  | seen {s i} : i < s.n → (s.stream i).watch = .idle → (s.stream i).gone = true →
      Step leaves drains s (s.upd i { s.stream i with watch := .waiting })
  /-- `initwg.Wait()` returns, `sub.Unsubscribe()`, `transports/websockets.go:280-282` -/
  | unsubscribe {s i} : i < s.n → (s.stream i).watch = .waiting → (s.stream i).init = .done →
      Step leaves drains s (s.upd i { s.stream i with watch := .locking, sub := false, due := false })
  /-- `closemu.Lock()` returns, `transports/websockets.go:282` -/
  | lock {s i} : i < s.n → (s.stream i).watch = .locking → s.prod = .idle → (∀ j, j < s.n → (s.stream j).watch.holds = false) →
      Step leaves drains s (s.upd i { s.stream i with watch := .locked })
  /-- `close(subch)`, `transports/websockets.go:283` -/
  | close {s i} : i < s.n → (s.stream i).watch = .locked → (s.stream i).chanOpen = true →
      Step leaves drains s (s.upd i { s.stream i with watch := .closed, chanOpen := false })
  /-- `closemu.Unlock()`, `transports/websockets.go:284-285` -/
  | unlock {s i} : i < s.n → (s.stream i).watch = .closed → Step leaves drains s (s.upd i { s.stream i with watch := .ended })
  /-- the library reads a message and sends it to the client -/
  | read {s i m rest} : i < s.n → (s.stream i).chan = m :: rest → ((s.stream i).gone = false ∨ drains i = true) →
      Step leaves drains s (s.upd i { s.stream i with chan := rest, got := (s.stream i).got ++ [m] })
  /-- the client leaves: the context is done -/
  | leave {s i} : i < s.n → leaves i = true → (s.stream i).gone = false →
      Step leaves drains s (s.upd i { s.stream i with gone := true })
  /-- `closemu.RLock()` returns, `transports/websockets.go:140,166,181` -/
  | rlock {s m rest} : s.prod = .idle → s.todo = m :: rest → (∀ j, j < s.n → (s.stream j).watch.excludes = false) →
      Step leaves drains s { s with prod := .holding m, todo := rest }
  /-- `feed.Send` begins, `transports/websockets.go:141,167,182` -/
  | begin {s m} : s.prod = .holding m →
      Step leaves drains s { s with prod := .sending m, sent := s.sent ++ [m], stream := fun j => { s.stream j with due := (s.stream j).sub } }
  /-- `feed.Send` sends to one channel -/
  | deliver {s i m} : i < s.n → s.prod = .sending m → (s.stream i).due = true → (s.stream i).chan.length < subchCap → (s.stream i).chanOpen = true →
      Step leaves drains s (s.upd i { s.stream i with chan := (s.stream i).chan ++ [m], due := false })
  /-- `feed.Send` and `RUnlock` return, `transports/websockets.go:153,176,189` -/
  | finish {s m} : s.prod = .sending m → (∀ j, j < s.n → (s.stream j).due = false) → Step leaves drains s { s with prod := .idle }

/-- Any number of steps of a kind. -/
inductive SrvSys.Steps (R : SrvSys → SrvSys → Prop) (s : SrvSys) : SrvSys → Prop
  | refl : Steps R s s
  | step {t u : SrvSys} : Steps R s t → R t u → Steps R s u

/-- A goroutine is about to panic: sending to a closed channel (`transports/websockets.go:255,270` and the feed), or closing it a second time (`:283`). -/
def SrvSys.Faulting (s : SrvSys) : Prop := ∃ i, i < s.n ∧ (s.stream i).chanOpen = false ∧
  ((∃ m rest, (s.stream i).init = .stored (m :: rest)) ∨ (s.stream i).init = .subscribed ∨ (s.stream i).watch = .locked ∨ (s.stream i).due = true)

/-- The state after `n` calls of `Streams`, each with the stored blocks it found, and before the producer is given `todo`. -/
def SrvSys.start (n : Nat) (stored : Nat → List WMsg) (todo : List WMsg) : SrvSys :=
  { n := n, todo := todo, sent := [], prod := .idle,
    stream := fun i => { init := .stored (stored i), watch := .idle, chan := [], chanOpen := true, gone := false, sub := false, due := false, got := [], since := none } }

end Verif
