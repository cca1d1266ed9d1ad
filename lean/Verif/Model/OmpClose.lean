import Verif.Model.Go
/-!
# Closing the ordering layer

The goroutine of `NewOrderedMessageProcessor` (`delivery/ordering.go:66-101`) and `Close` (`:365-371`), with time in milliseconds.

Simplifications: the two channels (blocks and reorg notifications) are one queue, of which the arrival times are recorded; what handling an item does is in `Model/Ordering`, here
it takes any time. There is one call of `Close`. Time passes only when no goroutine that could go on is left waiting (an idle machine); where several cases of
a `select` are possible any of them may be taken.
-/
namespace Verif

/-- Where the goroutine is: in its `select` since a time, handling an item, or it has returned. -/
inductive OPlace where
  | selecting (since : Nat)
  | handling (item : Nat)
  | ended

/-- The call of `Close`: not made, waiting since a time, returned (`heard`: the goroutine has received from `omp.quit`). -/
inductive OCloser where
  | idle
  | waiting (since : Nat)
  | done (heard : Bool)

structure OSys where
  now : Nat
  queue : List Nat
  handled : List Nat
  place : OPlace
  closer : OCloser

/-- The pause after which the goroutine looks at `omp.quit`, `delivery/ordering.go:87`. -/
def quitPoll : Nat := 250

/-- How long `Close` waits, `delivery/ordering.go:368`. -/
def closeWait : Nat := 1000

/-- The capacity of the channels, `delivery/ordering.go:62-63`. -/
def ompQueue : Nat := 100

/-- Some goroutine can go on now. -/
def OSys.urgent (s : OSys) : Prop :=
  (∃ t, s.place = .selecting t ∧ (s.queue ≠ [] ∨ t + quitPoll ≤ s.now)) ∨ ∃ t, s.closer = .waiting t ∧ t + closeWait ≤ s.now

/-- One step; `arrival`: whether it is an item that arrives. -/
inductive OSys.Step : OSys → Bool → OSys → Prop
  /-- a millisecond passes -/
  | tick {s} : ¬ s.urgent → Step s false { s with now := s.now + 1 }
  /-- an item is sent to the channel -/
  | arrive {s} : s.queue.length < ompQueue → Step s true { s with queue := s.queue ++ [s.now] }
  /-- an item is received, `delivery/ordering.go:69,78` -/
  | take {s t x rest} : s.place = .selecting t → s.queue = x :: rest → Step s false { s with place := .handling x, queue := rest }
  /-- it has been handled -/
  | finish {s x} : s.place = .handling x → Step s false { s with place := .selecting s.now, handled := s.handled ++ [x] }
  /-- the timer fires, nobody calls `Close`, `delivery/ordering.go:87,97` -/
  | poll {s t} : s.place = .selecting t → t + quitPoll ≤ s.now → (∀ t, s.closer ≠ .waiting t) → Step s false { s with place := .selecting s.now }
  /-- the timer fires and `Close` is heard, `delivery/ordering.go:92-95` -/
  | quit {s t t'} : s.place = .selecting t → t + quitPoll ≤ s.now → s.closer = .waiting t' → Step s false { s with place := .ended, closer := .done true }
  /-- `Close` is called, `delivery/ordering.go:366-367` -/
  | call {s} : s.closer = .idle → Step s false { s with closer := .waiting s.now }
  /-- `Close` gives up, `delivery/ordering.go:368-369` -/
  | giveUp {s t} : s.closer = .waiting t → t + closeWait ≤ s.now → Step s false { s with closer := .done false }

/-- Executions; `quiet`: in which nothing arrives. -/
inductive OSys.Steps (quiet : Bool) (s : OSys) : OSys → Prop
  | refl : Steps quiet s s
  | step {t u : OSys} {b : Bool} : Steps quiet s t → OSys.Step t b u → (quiet = true → b = false) → Steps quiet s u

/-- When the goroutine has been made. -/
def OSys.init : OSys := { now := 0, queue := [], handled := [], place := .selecting 0, closer := .idle }

end Verif
