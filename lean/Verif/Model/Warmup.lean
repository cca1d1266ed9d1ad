import Verif.Model.Kafka
/-!
# The partition goroutines of a Kafka consumer: `transports/kafka.go:581-617`

Every partition has a goroutine that forwards its messages to one channel. When it reaches the start offset it waits until all
others have (`warmupWg`). The drumline, which slows partitions down, and the ready channel are left out: neither drops or
reorders messages.
-/
namespace Verif

/-- Where a partition goroutine is. -/
inductive WarmPhase where
  /-- `warm` is false -/
  | cold
  /-- in `warmupWg.Wait()` with a message in hand, `transports/kafka.go:596` -/
  | waiting (m : RMsg)
  | warm

/-- A partition goroutine: start offset, messages the broker has still to deliver. -/
structure WPart where
  start : Int
  todo : List RMsg
  phase : WarmPhase

/-- All goroutines (the first `n` count) and what has been put on `messages`. -/
structure WState where
  n : Nat
  part : Nat → WPart
  out : List (Nat × RMsg)

/-- Changing one goroutine. -/
def WState.upd (s : WState) (i : Nat) (p : WPart) : WState := { s with part := fun j => if j = i then p else s.part j }

/-- One step of one goroutine. -/
inductive WState.Step : WState → WState → Prop
  /-- `transports/kafka.go:592-595`: the first message at or after the start offset; `warmupWg.Done()` -/
  | arrive {s i m ms} : i < s.n → (s.part i).todo = m :: ms → (s.part i).phase = .cold → m.offset ≥ (s.part i).start →
      WState.Step s (s.upd i ⟨(s.part i).start, ms, .waiting m⟩)
  /-- a message before the start offset -/
  | early {s i m ms} : i < s.n → (s.part i).todo = m :: ms → (s.part i).phase = .cold → m.offset < (s.part i).start →
      WState.Step s { s.upd i ⟨(s.part i).start, ms, .cold⟩ with out := s.out ++ [(i, m)] }
  /-- `warmupWg.Wait()` returns when all goroutines have called `Done`, `transports/kafka.go:596-597` -/
  | pass {s i m} : i < s.n → (s.part i).phase = .waiting m → (∀ j, j < s.n → (s.part j).phase ≠ .cold) →
      WState.Step s { s.upd i ⟨(s.part i).start, (s.part i).todo, .warm⟩ with out := s.out ++ [(i, m)] }
  /-- warm: forward, `transports/kafka.go:613` -/
  | forward {s i m ms} : i < s.n → (s.part i).todo = m :: ms → (s.part i).phase = .warm →
      WState.Step s { s.upd i ⟨(s.part i).start, ms, .warm⟩ with out := s.out ++ [(i, m)] }

/-- Reachability. -/
inductive WState.Steps : WState → WState → Prop
  | refl {s} : WState.Steps s s
  | tail {s t u} : WState.Steps s t → WState.Step t u → WState.Steps s u

/-- The start: every goroutine cold, nothing forwarded. -/
def WState.init (n : Nat) (start : Nat → Int) (msgs : Nat → List RMsg) : WState :=
  ⟨n, fun i => ⟨start i, msgs i, .cold⟩, []⟩

end Verif
