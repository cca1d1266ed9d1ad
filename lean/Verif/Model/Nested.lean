import Verif.Model.Lifecycle
/-!
# Reorg topics: the consumer inside a Kafka consumer

A message of type `Reorg` on an ordinary topic makes the dispatcher start a consumer for a topic of its own, wait until that is ready and
close it (`transports/kafka.go:666-681`). Both consumers give their messages to the same `OrderedMessageProcessor`.

Here: the dispatcher of the outer consumer with the messages in the order in which it receives them, and the inner consumers with all their
goroutines (`LSys`). Simplifications: those of `LSys`; the outer consumer is not closed; the partition goroutines that an inner `Start` has made before
it fails are left out (nobody takes what they read). A dispatcher inside `ProcessMessage` is not modelled: the call is one step.
-/
namespace Verif

/-- The consumer made at `transports/kafka.go:668-677`: no resumption, no rollback, no start hash. -/
def KC.nested : KC := { resumption := GMap.empty, rollback := 0, startHash := Hash.zero, isReorg := true }

/-- The broker: what it answers, the messages that it delivers in the end to a consumer of a partition that begins at an offset, and the high water marks seen. -/
structure RWorld where
  broker : Broker
  deliver : GoStr → Int → Int → List RMsg
  hwm : GoStr → Nat → RMsg → Int

/-- The loop over the partitions in `Start`, `transports/kafka.go:552-619`: offsets and messages; `none` if it returns an error. -/
def RWorld.openAll (W : RWorld) (t : GoStr) : List Int → Option (List (Int × List RMsg))
  | [] => some []
  | p :: ps => match KC.nested.start W.broker t p with
    | .error _ => none
    | .ok o => match W.openAll t ps with
      | none => none
      | some l => some ((o, W.deliver t p o) :: l)

/-- `rekc.Start()`, `transports/kafka.go:678`; `none` if it returns an error. The outer dispatcher is the one goroutine that calls `Ready` and `Close`. -/
def RWorld.start (W : RWorld) (t : GoStr) : Option LSys :=
  match W.broker.partitions t with
  | none => none
  | some ps => match W.openAll t ps with
    | none => none
    | some l => some (.init l.length (fun i => (l[i]?.getD (0, [])).1) (fun i => (l[i]?.getD (0, [])).2) 1 1)

/-- Where the outer dispatcher is. -/
inductive NPhase where
  /-- in its `select`, `transports/kafka.go:653` -/
  | free
  /-- in `<-rekc.Ready()` or `rekc.Close()` of the inner consumer with this number, `:679-680` -/
  | inside (k : Nat)
  /-- in `<-rekc.Ready()` of a consumer whose `Start` has failed, `:678-679` -/
  | stuck

/-- `todo`: what the outer dispatcher has still to receive; `taken`: what it has received; `wg`: its `reorgWg`; `inner`: the inner consumers with their topics;
`calls`: the messages given to `ProcessMessage` by any dispatcher, in order. -/
structure NSys where
  todo : List RMsg
  taken : List RMsg
  wg : Nat
  phase : NPhase
  inner : List (GoStr × LSys)
  calls : List RMsg

/-- The dispatcher of an inner consumer gives the message to `ProcessMessage`, `transports/kafka.go:681-695`. -/
def innerGives (m : RMsg) : Bool := match KC.dispatch true [] 1 m.key with
  | .ok (.process, _) => true
  | _ => false

/-- One step of one goroutine. -/
inductive NSys.Step (W : RWorld) (topic : GoStr) : NSys → NSys → Prop
  /-- the outer dispatcher handles a message, `transports/kafka.go:653-695` -/
  | take {s m rest a wg} : s.phase = .free → s.todo = m :: rest → KC.dispatch false topic s.wg m.key = .ok (a, wg) → (∀ t, a ≠ .reorgConsumer t) →
      Step W topic s { s with todo := rest, taken := s.taken ++ [m], wg := wg, calls := s.calls ++ if a = .process then [m] else [] }
  /-- a reorg is announced: an inner consumer is started, `:666-678` -/
  | announce {s m rest t wg u} : s.phase = .free → s.todo = m :: rest → KC.dispatch false topic s.wg m.key = .ok (.reorgConsumer t, wg) → W.start t = some u →
      Step W topic s { s with todo := rest, taken := s.taken ++ [m], wg := wg, phase := .inside s.inner.length, inner := s.inner ++ [(t, u)] }
  /-- `rekc.Start()` returns an error, which nobody looks at, `:678` -/
  | fail {s m rest t wg} : s.phase = .free → s.todo = m :: rest → KC.dispatch false topic s.wg m.key = .ok (.reorgConsumer t, wg) → W.start t = none →
      Step W topic s { s with todo := rest, taken := s.taken ++ [m], wg := wg, phase := .stuck }
  /-- an inner consumer makes a step; it is not closed before it is ready, `:679-680` -/
  | inner {s k t u v} : s.inner[k]? = some (t, u) → LSys.Step (W.hwm t) true [] u v → (v.callers = u.callers ∨ u.readers = [.released]) →
      Step W topic s { s with inner := s.inner.set k (t, v), calls := s.calls ++ ((v.handled.drop u.handled.length).map Prod.snd).filter innerGives }
  /-- `rekc.Close()` returns, `:680` -/
  | leave {s k t u} : s.phase = .inside k → s.inner[k]? = some (t, u) → u.callers = [.returned] → Step W topic s { s with phase := .free }

/-- Any number of steps of a kind. -/
inductive NSys.Steps (R : NSys → NSys → Prop) (s : NSys) : NSys → Prop
  | refl : Steps R s s
  | step {t u : NSys} : Steps R s t → R t u → Steps R s u

/-- A goroutine is about to panic: the outer dispatcher, a goroutine of an inner consumer, or the one that records heartbeats there: the inner consumer has no
`pingTracker` (`transports/kafka.go:668-677`), and writing to the nil map panics (`:34,734`). -/
def NSys.Faulting (topic : GoStr) (s : NSys) : Prop :=
  (∃ m rest f, s.phase = .free ∧ s.todo = m :: rest ∧ KC.dispatch false topic s.wg m.key = .error f) ∨
  ∃ (k : Nat) (t : GoStr) (u : LSys), s.inner[k]? = some (t, u) ∧ (u.Faulting true [] ∨ ∃ e ∈ u.handled, e.2.key.head? = some PingType)

/-- The outer consumer after `Start`, with what it will receive. -/
def NSys.init (msgs : List RMsg) : NSys := { todo := msgs, taken := [], wg := 0, phase := .free, inner := [], calls := [] }

end Verif
