import Verif.Model.System
import Verif.Model.Warmup
/-!
# A running Kafka consumer

All its goroutines together: the partition goroutines (`WState`, `transports/kafka.go:581-617`), the channel `messages`
(`:547`), the dispatcher (`:650-737`), which calls `ProcessMessage`, and the goroutine of the ordering layer (`Sys`).

Left out: the drumline, the ready channel, the timers, `Close`, and the consumers for reorg topics: a message that starts one
(`:667-680`) is not dispatched here.
-/
namespace Verif

/-- `w.out` lists all that was ever put on `messages`; the first `taken` of them have been received by the dispatcher. `wg` is the counter
of `reorgWg`, `beats` what was sent to `heartbeats` (`transports/kafka.go:688`). -/
structure KSys where
  w : WState
  taken : Nat
  wg : Nat
  beats : List Hash
  sys : Sys

/-- The capacity of `messages`, `transports/kafka.go:547`. -/
def messagesCap : Nat := 512

/-- What an action of the dispatcher adds to `heartbeats`, `transports/kafka.go:688,742-749`. -/
def Dispatch.beat : Dispatch → List Hash
  | .ping h => [h]
  | _ => []

/-- One step of one goroutine. -/
inductive KSys.Step (C : Codec) (env : Env) (o : MapOrder) (topic : GoStr) : KSys → KSys → Prop
  /-- a partition goroutine, `transports/kafka.go:581-617`; sending waits for room -/
  | part {k : KSys} {w : WState} : WState.Step k.w w → w.out.length ≤ k.taken + messagesCap → Step C env o topic k { k with w := w }
  /-- the dispatcher, not busy in `ProcessMessage`, receives the next message, `transports/kafka.go:653-695` -/
  | take {k : KSys} {i : Nat} {m : RMsg} {a : Dispatch} {wg : Nat} : k.sys.todo = [] → k.sys.out = [] → k.w.out[k.taken]? = some (i, m) →
      KC.dispatch false topic k.wg m.key = .ok (a, wg) → (∀ t, a ≠ .reorgConsumer t) →
      Step C env o topic k { k with taken := k.taken + 1, wg := wg, beats := k.beats ++ a.beat,
                                    sys := if a = .process then { k.sys with todo := [.msg m] } else k.sys }
  /-- `ProcessMessage` and the ordering layer, `delivery/consumer.go:254-401`, `delivery/ordering.go:66-100` -/
  | inner {k : KSys} {s : Sys} : Sys.Step C env o k.sys s → Step C env o topic k { k with sys := s }

/-- Any number of steps. -/
inductive KSys.Steps (C : Codec) (env : Env) (o : MapOrder) (topic : GoStr) (k : KSys) : KSys → Prop
  | refl : Steps C env o topic k k
  | step {k1 k2 : KSys} : Steps C env o topic k k1 → KSys.Step C env o topic k1 k2 → Steps C env o topic k k2

/-- The state after `Start` of a consumer made by `NewKafkaConsumer` (`transports/kafka.go:533-537`), given for each of its `n` partitions the
offset it starts from and the messages the broker delivers. -/
def KSys.start (cfg : Config) (n : Nat) (start : Nat → Int) (msgs : Nat → List RMsg) : Except Fault KSys := do
  let s ← Sys.start cfg []
  .ok { w := .init n start msgs, taken := 0, wg := 0, beats := [], sys := s }

/-- The dispatcher is about to panic, or one of the other goroutines to fault. -/
def KSys.Faulting (C : Codec) (env : Env) (o : MapOrder) (topic : GoStr) (k : KSys) : Prop :=
  (∃ i m f, k.w.out[k.taken]? = some (i, m) ∧ KC.dispatch false topic k.wg m.key = .error f) ∨
  (∃ c cs f, k.sys.todo = c :: cs ∧ k.sys.mp.call C env c = .error f) ∨
  ∃ pb rest f, k.sys.ch = pb :: rest ∧ k.sys.omp.handle o pb = .error f

end Verif
