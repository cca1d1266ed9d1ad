import Verif.Model.Mux
/-!
# Making producers: `transports/resolver.go:27-48`, `transports/websockets.go:90-118`, `transports/kafka.go:227-323`

The producers of a process are numbered in the order they are made. There is no way to close one (`transports/interfaces.go:16-35`): its goroutines run as long as the process.
-/
namespace Verif

/-- What is outside at the time of a call: `url.Parse` (scheme and port of a URL), and the first error of what `NewKafkaProducer` does before it starts goroutines
(`transports/kafka.go:231-254`: schema, topics, connections), if any. -/
structure MakeEnv where
  parse : GoStr → Except Err (GoStr × GoStr)
  kafka : GoStr → GoStr → GMap GoStr GoStr → Option Err

/-- `ProducerBrokerParams`, `transports/resolver.go:116-120`. -/
structure ProducerParams where
  url : GoStr
  defaultTopic : GoStr
  schema : GMap GoStr GoStr

/-- The goroutines of the producers made so far: how many there are; those that send a heartbeat every 30 seconds (`transports/kafka.go:304-312`); for each port the producer whose server
has it (`transports/websockets.go:112-118`). -/
structure Made where
  next : Nat
  beating : List Nat
  serving : GMap Int Nat

/-- A producer with its number. -/
inductive MadeProducer where
  | kafka (id : Nat)
  | ws (id : Nat)
deriving DecidableEq

/-- The number of a producer. -/
def MadeProducer.id : MadeProducer → Nat
  | .kafka i => i
  | .ws i => i

/-- `Serve`, `transports/websockets.go:112-118`: it returns no error; `tm.Run` runs in a goroutine and its error is lost. The server gets the port unless it is taken (cardinal-rpc and
`net/http`, not in the repository). Simplification: it does so before another server is made. -/
def Made.serve (s : Made) (id : Nat) (port : Int) : Made :=
  match s.serving.get? port with
  | some _ => s
  | none => { s with serving := s.serving.insert port id }

/-- `NewWebsocketProducer`, `transports/websockets.go:90-110`; `resumer` says that it is not `nil`. -/
def Made.newWebsocketProducer (s : Made) (env : MakeEnv) (resumer : Bool) (wsurl : GoStr) : Made × Except Err MadeProducer :=
  if !resumer then (s, .error (.other 10))
  else match env.parse wsurl with
    | .error e => (s, .error e)
    | .ok (scheme, port) =>
      if scheme = str "wss" ∨ scheme = str "ws" then
        match atoi port with
        | none => (s, .error (.other 12))
        | some port => ({ s with next := s.next + 1 }.serve s.next port, .ok (.ws s.next))
      else (s, .error (.other 11))

/-- `NewKafkaProducer`, `transports/kafka.go:227-323`: after the last error it can return it starts the goroutine that sends heartbeats. What it waits for is in `Model/Watch.lean`. -/
def Made.newKafkaProducer (s : Made) (env : MakeEnv) (brokerURL defaultTopic : GoStr) (schema : GMap GoStr GoStr) : Made × Except Err MadeProducer :=
  match env.kafka brokerURL defaultTopic schema with
  | some e => (s, .error e)
  | none => ({ s with next := s.next + 1, beating := s.beating ++ [s.next] }, .ok (.kafka s.next))

/-- `ResolveProducerWithResumer`, `transports/resolver.go:27-36`. -/
def Made.resolveProducer (s : Made) (env : MakeEnv) (resumer : Bool) (bp : ProducerParams) : Made × Except Err MadeProducer :=
  if protocolOf bp.url = str "ws" ∨ protocolOf bp.url = str "wss" then s.newWebsocketProducer env resumer (trimPrefix (str "cardinal://") bp.url)
  else if protocolOf bp.url = str "kafka" then s.newKafkaProducer env (trimPrefix (str "cardinal://") bp.url) bp.defaultTopic bp.schema
  else (s, .error (.other 13))

/-- The loop of `ResolveMuxProducer`, `transports/resolver.go:42-46`: `ps` are the producers made so far. -/
def Made.resolveProducers (env : MakeEnv) (resumer : Bool) : List ProducerParams → Made → List MadeProducer → Made × Except Err (List MadeProducer)
  | [], s, ps => (s, .ok ps)
  | bp :: bps, s, ps => match s.resolveProducer env resumer bp with
    | (s, .error e) => (s, .error e)
    | (s, .ok p) => Made.resolveProducers env resumer bps s (ps ++ [p])

/-- `ResolveMuxProducer`, `transports/resolver.go:38-48`. -/
def Made.resolveMuxProducer (s : Made) (env : MakeEnv) (resumer : Bool) (bps : List ProducerParams) : Made × Except Err (List MadeProducer) :=
  Made.resolveProducers env resumer bps s []

end Verif
