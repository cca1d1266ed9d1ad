import Verif.Model.Go
/-!
# `Ready` of a muxed consumer

`muxConsumer.Ready` (`transports/resolver.go:178-203`) makes a goroutine that asks each transport for its channel, waits with `reflect.Select` for any of them
and then sends on the channel it has given to its caller.

Simplifications: a transport is only how far it is with becoming ready (for Kafka that is `Model/Lifecycle`, for a websocket `Model/WebsocketLife`); nobody else calls
`Ready` of the transports; `kc.ready` is read and written without synchronisation, here every access is one step.
-/
namespace Verif

/-- The transports of a muxed consumer, `transports/resolver.go:66-127`. -/
inductive MKind where
  | kafka
  | socket
  | null
  deriving DecidableEq

/-- How far a transport is: not ready; (Kafka) at `kc.ready <- struct{}{}`, `transports/kafka.go:641`; (Kafka) between that and `kc.ready = nil`, `:643`;
ready for good: (Kafka) `kc.ready` is nil, (websocket) `c.ready` is closed, `transports/websockets.go:405`. -/
inductive MState where
  | cold
  | offering
  | sent
  | open
  deriving DecidableEq

structure MTransport where
  kind : MKind
  state : MState

/-- The channels that `Ready` of a transport returns: the one of the transport, or a new one that holds an element. -/
inductive MChan where
  | shared
  | own
  deriving DecidableEq

/-- `Ready` of a transport, `transports/kafka.go:744-749`, `transports/websockets.go:483-485`, `transports/null.go:24-28`. -/
def MTransport.ready (t : MTransport) : MChan :=
  match t.kind, t.state with
  | .kafka, .open => .own
  | .kafka, _ => .shared
  | .socket, _ => .shared
  | .null, _ => .own

/-- Whether one can receive from the channel now. -/
def MTransport.gives (t : MTransport) : MChan → Bool
  | .own => true
  | .shared => match t.kind, t.state with
    | .kafka, .offering => true
    | .socket, .open => true
    | _, _ => false

/-- The transport after somebody has received from the channel. -/
def MTransport.taken (t : MTransport) : MChan → MTransport
  | .own => t
  | .shared => match t.kind with
    | .kafka => { t with state := .sent }
    | _ => t

/-- The goroutine of one call of `Ready`, `transports/resolver.go:191-201`, with its caller: it has the channels of the first transports, or it sends, or its caller
has received. -/
inductive MReader where
  | waiting (chans : List MChan)
  | sending
  | done

structure MSys where
  ts : List MTransport
  readers : List MReader

/-- One step. -/
inductive MSys.Step : MSys → MSys → Prop
  /-- a transport has caught up: `transports/kafka.go:633-641`, `transports/websockets.go:402-406` -/
  | warm {s i k} : s.ts[i]? = some ⟨k, .cold⟩ → k ≠ .null → Step s { s with ts := s.ts.set i ⟨k, if k = .kafka then .offering else .open⟩ }
  /-- `kc.ready = nil`, `transports/kafka.go:643` -/
  | forget {s i k} : s.ts[i]? = some ⟨k, .sent⟩ → Step s { s with ts := s.ts.set i ⟨k, .open⟩ }
  /-- `c.Ready()` for the next transport, `transports/resolver.go:193-198` -/
  | ask {s r chans t} : s.readers[r]? = some (.waiting chans) → s.ts[chans.length]? = some t →
      Step s { s with readers := s.readers.set r (.waiting (chans ++ [t.ready])) }
  /-- `reflect.Select(channels)`, `transports/resolver.go:199` -/
  | choose {s r chans i t c} : s.readers[r]? = some (.waiting chans) → chans.length = s.ts.length → s.ts[i]? = some t → chans[i]? = some c → t.gives c = true →
      Step s { ts := s.ts.set i (t.taken c), readers := s.readers.set r .sending }
  /-- `ch <- struct{}{}` meets the caller, `transports/resolver.go:200` -/
  | release {s r} : s.readers[r]? = some .sending → Step s { s with readers := s.readers.set r .done }

/-- Executions with their number of steps. -/
inductive MSys.Steps (s : MSys) : Nat → MSys → Prop
  | refl : Steps s 0 s
  | step {n t u} : Steps s n t → MSys.Step t u → Steps s (n + 1) u

/-- The transports as they are made, and `n` calls of `Ready`. -/
def MSys.init (ks : List MKind) (n : Nat) : MSys :=
  { ts := ks.map fun k => ⟨k, if k = .null then .open else .cold⟩, readers := List.replicate n (.waiting []) }

end Verif
