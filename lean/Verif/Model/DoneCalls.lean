/-
`PendingBatch.Done` called by several goroutines, step by step.

`Model/Waiter` takes a call of `Done` as one step. Here the three things it does to shared state — reading `waitCh`, setting it to nil, closing the channel — are steps of their own.
The metrics and the log message (`delivery/consumer.go:82-86`) are not modelled.
-/

namespace Verif

/-- Where a goroutine is in `PendingBatch.Done`, `delivery/consumer.go:76-81`. -/
inductive DPhase where
  /-- between calls -/
  | idle
  /-- it has read a channel that is not nil (:77-78) -/
  | got (c : Nat)
  /-- it has set the field to nil (:79) -/
  | closing (c : Nat)
deriving DecidableEq, Repr

/-- A goroutine that calls `Done` on blocks, one after the other: `ChainUpdate.Done` (`delivery/ordering.go:134-138`) of the updates it got, or calls on single blocks. While a call
runs, its block is the first of `todo`. -/
structure DGo where
  todo : List Nat
  phase : DPhase
deriving DecidableEq, Repr

/-- Blocks are numbers, and so are channels. -/
structure DSys where
  /-- `waitCh` of the blocks, `delivery/consumer.go:39` -/
  wait : Nat → Option Nat
  closed : List Nat
  gs : List DGo
  /-- a goroutine has panicked: Go ends the program -/
  panicked : Bool

/-- Goroutines that are to call `Done` on these blocks. -/
def DSys.init (w : Nat → Option Nat) (closed : List Nat) (ps : List (List Nat)) : DSys := ⟨w, closed, ps.map (fun p => ⟨p, .idle⟩), false⟩

/-- What can happen next. -/
inductive DSys.Step : DSys → DSys → Prop where
  /-- The channel is nil: the call does nothing (:77-78). -/
  | none {s : DSys} {i : Nat} {b rest} : s.panicked = false → s.gs[i]? = some ⟨b :: rest, .idle⟩ → s.wait b = none → Step s { s with gs := s.gs.set i ⟨rest, .idle⟩ }
  /-- The channel is read and is not nil (:77-78). -/
  | read {s : DSys} {i : Nat} {b rest c} : s.panicked = false → s.gs[i]? = some ⟨b :: rest, .idle⟩ → s.wait b = some c →
      Step s { s with gs := s.gs.set i ⟨b :: rest, .got c⟩ }
  /-- The field is set to nil (:79). -/
  | clear {s : DSys} {i : Nat} {b rest c} : s.panicked = false → s.gs[i]? = some ⟨b :: rest, .got c⟩ →
      Step s { s with wait := fun x => if x = b then Option.none else s.wait x, gs := s.gs.set i ⟨b :: rest, .closing c⟩ }
  /-- The channel is closed (:80). -/
  | close {s : DSys} {i : Nat} {b rest c} : s.panicked = false → s.gs[i]? = some ⟨b :: rest, .closing c⟩ → c ∉ s.closed →
      Step s { s with closed := c :: s.closed, gs := s.gs.set i ⟨rest, .idle⟩ }
  /-- Closing a closed channel (:80). -/
  | panic {s : DSys} {i : Nat} {b rest c} : s.panicked = false → s.gs[i]? = some ⟨b :: rest, .closing c⟩ → c ∈ s.closed → Step s { s with panicked := true }

/-- Executions. -/
inductive DSys.Steps : DSys → DSys → Prop where
  | refl {s} : Steps s s
  | step {s t u} : Steps s t → DSys.Step t u → Steps s u

end Verif
