import Verif.Model.KafkaSystem
/-!
# The life of a Kafka consumer: becoming ready and closing

The goroutines that `Start` makes (`transports/kafka.go:540-738`) with `Ready` (`:744-749`) and `Close` (`:756-759`): the partition
goroutines, the goroutine that announces readiness, the dispatcher, the goroutines that a `Close` starts, and the goroutines of the
program that call `Ready` and `Close`.

Simplifications: handling a message is one step of the dispatcher, what `ProcessMessage` does with it is in `KSys`. Left out: the drumline
(its `Step` may delay a partition goroutine and is released by `Reset`), the heartbeat ticker, and the consumers for reorg topics: a message
that starts one (`:667-680`) is not dispatched here. `sarama`: after `Close` of a partition consumer the broker's library delivers some of the
messages that it had still to deliver and then closes the channel `Messages()`. The high water mark is whatever the library says when a
goroutine looks at it: a function of the partition and the message in hand.
-/
namespace Verif

/-- Where a partition goroutine is, `transports/kafka.go:581-615`. -/
inductive LPhase where
  /-- not yet run, before `kc.shutdownWg.Add(1)`, `:582` -/
  | fresh
  /-- at `range pc.Messages()`, `:589` -/
  | reading
  /-- in `warmupWg.Wait()` with a message in hand, `:596` -/
  | warming (m : RMsg)
  /-- at `messages <- input`, `:613` -/
  | sending (m : RMsg)
  /-- returned, `kc.shutdownWg.Done()` called, `:583` -/
  | ended
deriving DecidableEq

/-- A partition goroutine with its partition consumer: the start offset, the messages still to be delivered, whether the partition consumer
has not been closed, where the goroutine is, `warm` (`transports/kafka.go:586`), and whether `once` (`:585`) has run. -/
structure LPart where
  start : Int
  todo : List RMsg
  live : Bool
  phase : LPhase
  warm : Bool
  done : Bool

/-- The goroutine that announces readiness, `transports/kafka.go:631-646`. -/
inductive RdyPhase where
  /-- in `wg.Wait()`, `:633` -/
  | parts
  /-- `<-readych`, `:636` -/
  | timer
  /-- `reorgWg.Wait()`, `:639` -/
  | reorgs
  /-- `kc.ready <- struct{}{}`, `:641` -/
  | sending
  /-- before `kc.ready = nil`, `:643` -/
  | sent
  /-- `kc.ready` is nil -/
  | finished
deriving DecidableEq

/-- A goroutine of the program that waits for `<-kc.Ready()`: it has yet to call `Ready`, it waits on the channel `kc.ready`, or it goes on. -/
inductive ReaderPhase where
  | soon
  | waiting
  | released
deriving DecidableEq

/-- A goroutine of the program that calls `Close` (`transports/kafka.go:756-759`): it has yet to send to `kc.quit`, it waits in
`kc.shutdownWg.Wait()`, or it goes on. -/
inductive CallerPhase where
  | soon
  | waiting
  | returned
deriving DecidableEq

/-- A goroutine that the dispatcher starts when it receives from `kc.quit`, `transports/kafka.go:717-724`: about to close the partition consumer
with the given index, in `kc.shutdownWg.Wait()`, or done with `close(messages)`. -/
inductive CloserPhase where
  | closing (i : Nat)
  | waiting
  | closed
deriving DecidableEq

/-- The running consumer. Partition goroutines (the first `n` count), the channel `messages` and whether it is open, the messages the dispatcher has
handled, the counter of `reorgWg`, the goroutine that announces readiness, whether the dispatcher runs, the goroutines started by `quit`, and the
goroutines of the program. -/
structure LSys where
  n : Nat
  part : Nat → LPart
  chan : List (Nat × RMsg)
  chanOpen : Bool
  handled : List (Nat × RMsg)
  wg : Nat
  rdy : RdyPhase
  dispatching : Bool
  closers : List CloserPhase
  readers : List ReaderPhase
  callers : List CallerPhase

/-- Changing one partition goroutine. -/
def LSys.upd (s : LSys) (i : Nat) (p : LPart) : LSys := { s with part := fun j => if j = i then p else s.part j }

/-- `warmupWg.Done()` has been called, `transports/kafka.go:595`. -/
def LPart.arrived (p : LPart) : Bool := p.warm || match p.phase with
  | .warming _ => true
  | _ => false

/-- The goroutine counts in `kc.shutdownWg`, `transports/kafka.go:582-583`. -/
def LPart.running (p : LPart) : Bool := match p.phase with
  | .fresh => false
  | .ended => false
  | _ => true

/-- `transports/kafka.go:599-613`: whether `once` has run after the message has been looked at. -/
def LPart.look (p : LPart) (s : LSys) (hwm : Int) (m : RMsg) : Bool :=
  p.done || (s.rdy ≠ .finished && hwm - m.offset ≤ 1)

/-- `transports/kafka.go:589-599`: a message is received. -/
def LPart.receive (p : LPart) (s : LSys) (hwm : Int) (m : RMsg) (ms : List RMsg) : LPart :=
  if !p.warm && m.offset ≥ p.start then { p with todo := ms, phase := .warming m }
  else { p with todo := ms, phase := .sending m, done := p.look s hwm m }

/-- One step of one goroutine. -/
inductive LSys.Step (hwm : Nat → RMsg → Int) (isReorg : Bool) (topic : GoStr) : LSys → LSys → Prop
  /-- a partition goroutine begins, `transports/kafka.go:582-588` -/
  | begin {s i} : i < s.n → (s.part i).phase = .fresh → Step hwm isReorg topic s (s.upd i { s.part i with phase := .reading })
  /-- a partition goroutine receives a message, `transports/kafka.go:589-612` -/
  | receive {s i m ms} : i < s.n → (s.part i).phase = .reading → (s.part i).todo = m :: ms →
      Step hwm isReorg topic s (s.upd i ((s.part i).receive s (hwm i m) m ms))
  /-- `warmupWg.Wait()` returns, `transports/kafka.go:596-612` -/
  | warmed {s i m} : i < s.n → (s.part i).phase = .warming m → (∀ j, j < s.n → (s.part j).arrived = true) →
      Step hwm isReorg topic s (s.upd i { s.part i with phase := .sending m, warm := true, done := (s.part i).look s (hwm i m) m })
  /-- `messages <- input`, `transports/kafka.go:613` -/
  | send {s i m} : i < s.n → (s.part i).phase = .sending m → s.chanOpen = true → s.chan.length < messagesCap →
      Step hwm isReorg topic s { s.upd i { s.part i with phase := .reading } with chan := s.chan ++ [(i, m)] }
  /-- the channel `pc.Messages()` is closed and empty: the goroutine returns, `transports/kafka.go:589,583` -/
  | finish {s i} : i < s.n → (s.part i).phase = .reading → (s.part i).todo = [] → (s.part i).live = false →
      Step hwm isReorg topic s (s.upd i { s.part i with phase := .ended })
  /-- `wg.Wait()` returns: every partition has called `readyWg.Done()`, `transports/kafka.go:633-635` -/
  | caughtUp {s} : s.rdy = .parts → (∀ i, i < s.n → (s.part i).done = true) → Step hwm isReorg topic s { s with rdy := .timer }
  /-- the dispatcher's select ends with the timer of `readyWaiter`, `transports/kafka.go:705-716,636-638` -/
  | tick {s} : s.rdy = .timer → s.dispatching = true → Step hwm isReorg topic s { s with rdy := .reorgs }
  /-- `reorgWg.Wait()` returns, `transports/kafka.go:639` -/
  | reorgsDone {s} : s.rdy = .reorgs → s.wg = 0 → Step hwm isReorg topic s { s with rdy := .sending }
  /-- `kc.ready <- struct{}{}` meets a goroutine that waits on the channel, `transports/kafka.go:641` -/
  | ready {s k} : s.rdy = .sending → s.readers[k]? = some .waiting →
      Step hwm isReorg topic s { s with rdy := .sent, readers := s.readers.set k .released }
  /-- `kc.ready = nil`, `transports/kafka.go:643` -/
  | forget {s} : s.rdy = .sent → Step hwm isReorg topic s { s with rdy := .finished }
  /-- a goroutine calls `Ready`, `transports/kafka.go:744-749` -/
  | ask {s k} : s.readers[k]? = some .soon →
      Step hwm isReorg topic s { s with readers := s.readers.set k (if s.rdy = .finished then .released else .waiting) }
  /-- the dispatcher handles a message, `transports/kafka.go:653-695` -/
  | take {s i m rest a wg} : s.dispatching = true → s.chan = (i, m) :: rest → KC.dispatch isReorg topic s.wg m.key = .ok (a, wg) →
      (∀ t, a ≠ .reorgConsumer t) → Step hwm isReorg topic s { s with chan := rest, handled := s.handled ++ [(i, m)], wg := wg }
  /-- the dispatcher receives from `kc.quit`, `transports/kafka.go:717-718,757` -/
  | quit {s k} : s.dispatching = true → s.callers[k]? = some .soon →
      Step hwm isReorg topic s { s with callers := s.callers.set k .waiting, closers := s.closers ++ [.closing 0] }
  /-- `c.Close()`, `transports/kafka.go:719-721`; some of the messages still to be delivered may come -/
  | closePart {s k i ms} : s.closers[k]? = some (.closing i) → i < s.n → ms.Sublist (s.part i).todo →
      Step hwm isReorg topic s { s.upd i { s.part i with todo := ms, live := false } with closers := s.closers.set k (.closing (i + 1)) }
  /-- the loop over the partition consumers is over, `transports/kafka.go:721` -/
  | closeWait {s k i} : s.closers[k]? = some (.closing i) → s.n ≤ i → Step hwm isReorg topic s { s with closers := s.closers.set k .waiting }
  /-- `kc.shutdownWg.Wait()` returns, `close(messages)`, `transports/kafka.go:722-723` -/
  | closeChan {s k} : s.closers[k]? = some .waiting → (∀ i, i < s.n → (s.part i).running = false) → s.chanOpen = true →
      Step hwm isReorg topic s { s with chanOpen := false, closers := s.closers.set k .closed }
  /-- the dispatcher finds `messages` closed and empty, `transports/kafka.go:654-656` -/
  | stop {s} : s.dispatching = true → s.chan = [] → s.chanOpen = false → Step hwm isReorg topic s { s with dispatching := false }
  /-- `kc.shutdownWg.Wait()` in `Close` returns, `transports/kafka.go:758` -/
  | closed {s k} : s.callers[k]? = some .waiting → (∀ i, i < s.n → (s.part i).running = false) →
      Step hwm isReorg topic s { s with callers := s.callers.set k .returned }

/-- Any number of steps of a kind. -/
inductive LSys.Steps (R : LSys → LSys → Prop) (s : LSys) : LSys → Prop
  | refl : Steps R s s
  | step {t u : LSys} : Steps R s t → R t u → Steps R s u

/-- A goroutine is about to panic: sending to the closed channel `messages`, closing it a second time (`transports/kafka.go:613,723`), or a message the
dispatcher faults on. -/
def LSys.Faulting (isReorg : Bool) (topic : GoStr) (s : LSys) : Prop :=
  (∃ i m, i < s.n ∧ (s.part i).phase = .sending m ∧ s.chanOpen = false) ∨
  (∃ k : Nat, s.closers[k]? = some CloserPhase.waiting ∧ (∀ i, i < s.n → (s.part i).running = false) ∧ s.chanOpen = false) ∨
  ∃ i m rest f, s.dispatching = true ∧ s.chan = (i, m) :: rest ∧ KC.dispatch isReorg topic s.wg m.key = .error f

/-- The state after `Start`: `n` partitions with their start offsets and the messages the broker delivers, `readers` goroutines that wait for `Ready`
and `callers` goroutines that call `Close`. -/
def LSys.init (n : Nat) (start : Nat → Int) (msgs : Nat → List RMsg) (readers callers : Nat) : LSys :=
  { n := n, part := fun i => { start := start i, todo := msgs i, live := true, phase := .fresh, warm := false, done := false },
    chan := [], chanOpen := true, handled := [], wg := 0, rdy := .parts, dispatching := true, closers := [],
    readers := List.replicate readers .soon, callers := List.replicate callers .soon }

end Verif
