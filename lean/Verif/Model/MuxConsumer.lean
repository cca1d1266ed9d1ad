import Verif.Model.Mux
import Verif.Model.Ordering
/-!
# A consumer of several transports: `transports/resolver.go:93-212`, `transports/null.go`

The consumers share one ordering layer. Left out: `Ready`, which releases its caller when one of the consumers' channels does.
-/
namespace Verif

/-- The text of an answer, `delivery/ordering.go:375-377`, `delivery/consumer.go:90-100,413`. -/
def OWhy.text : OWhy → GoStr
  | .done => str "done, not evicted"
  | .pendingParent => str "pending parent"
  | .mp .notFound => str "not found"
  | .mp (.why .pendingBatches) => str "Pending batches"
  | .mp (.why (.pendingPrefix p)) => str "Pending prefix '" ++ p ++ str "'"
  | .mp (.why .ready) => str "ready"

/-- `WhyNotReady` of the consumers, given the answer of the ordering layer: `transports/kafka.go:760-762`, `websockets.go:486-488`, `null.go:29-31`. -/
def ConsumerKind.whyNotReady (omp : GoStr) : ConsumerKind → GoStr
  | .kafka => omp
  | .ws => str "unknown"
  | .null => str "null"

/-- `muxConsumer.WhyNotReady`, `transports/resolver.go:205-212`. -/
def muxConsumerWhy (ks : List ConsumerKind) (omp : GoStr) : GoStr := (muxWhyNotReady (ks.map (fun k w => (w, k.whyNotReady omp))) ()).2

/-- A waiter: that of `null.go`, or the one made for the consumer with the given index (`transports/kafka.go:764-769`, `websockets.go:490-495`). -/
inductive WaiterOf where
  | null
  | omp (i : Nat)
deriving DecidableEq

/-- `Waiter` of the consumer with index `i`. It keeps the waiter it made the first time. -/
def ConsumerKind.waiter (i : Nat) : ConsumerKind → WaiterOf
  | .null => .null
  | _ => .omp i

/-- The loop of `muxConsumer.Waiter`, `transports/resolver.go:131-136`. -/
def muxWaiters (i : Nat) : List ConsumerKind → Option WaiterOf
  | [] => none
  | k :: ks => if k.waiter i ≠ .null then some (k.waiter i) else muxWaiters (i + 1) ks

/-- `muxConsumer.Waiter`, `transports/resolver.go:129-142`: `mc.waiter` before, the result (which is `mc.waiter` afterwards). -/
def muxWaiter (ks : List ConsumerKind) (before : Option WaiterOf) : WaiterOf :=
  match before with
  | some w => w
  | none => (muxWaiters 0 ks).getD .null

/-- The loop of `ResolveMuxConsumer`, `transports/resolver.go:101-105`. -/
def resolveMuxs : List GoStr → List ConsumerKind → Except Err (List ConsumerKind)
  | [], cs => .ok cs
  | url :: urls, cs => match resolveConsumer url with
    | .error e => .error e
    | .ok c => resolveMuxs urls (cs ++ [c])

/-- `ResolveMuxConsumer`, `transports/resolver.go:94-107`, for a configuration the ordering layer accepts; errors of the constructors (unreachable brokers)
are left out. -/
def resolveMux (urls : List GoStr) : Except Err (List ConsumerKind) := resolveMuxs urls []

end Verif
