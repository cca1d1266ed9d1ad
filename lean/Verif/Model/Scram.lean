import Verif.Model.Go
/-!
# The SCRAM client given to Sarama (`transports/scram.go`)

The package `github.com/xdg/scram` is a parameter: what `NewClient` answers, the first state of a conversation, what `Step` answers and the state after it, and what
`Done` answers.
-/
namespace Verif

/-- The part of `github.com/xdg/scram` that is used, `transports/scram.go:20-34`: clients `L`, conversations `V`, errors `E`. `NewClient` returns a nil client with an error. -/
structure ScramLib (L V E : Type) where
  newClient : GoStr → GoStr → GoStr → Except E L
  newConversation : L → V
  /-- the response and the error, and the conversation after it -/
  step : V → GoStr → (GoStr × Option E) × V
  done : V → Bool

/-- `XDGSCRAMClient`, `transports/scram.go:13-17`: two pointers that are nil at first (`transports/kafka.go:139,142`). The hash function is part of the library here. -/
structure ScramClient (L V : Type) where
  client : Option L
  conversation : Option V

/-- `&XDGSCRAMClient{HashGeneratorFcn: …}`, `transports/kafka.go:139,142`. -/
def ScramClient.new {L V : Type} : ScramClient L V := ⟨none, none⟩

/-- `Begin`, `transports/scram.go:19-26`. -/
def ScramClient.begin {L V E : Type} (lib : ScramLib L V E) (x : ScramClient L V) (user pass authz : GoStr) : ScramClient L V × Option E :=
  match lib.newClient user pass authz with
  | .error e => ({ x with client := none }, some e)
  | .ok c => (⟨some c, some (lib.newConversation c)⟩, none)

/-- `Step`, `transports/scram.go:28-31`. On a nil conversation the library reads a field of it: a panic. -/
def ScramClient.step {L V E : Type} (lib : ScramLib L V E) (x : ScramClient L V) (challenge : GoStr) : Except Fault (ScramClient L V × (GoStr × Option E)) :=
  match x.conversation with
  | none => .error .panic
  | some v => .ok ({ x with conversation := some (lib.step v challenge).2 }, (lib.step v challenge).1)

/-- `Done`, `transports/scram.go:33-35`; a panic as in `Step`. -/
def ScramClient.done {L V E : Type} (lib : ScramLib L V E) (x : ScramClient L V) : Except Fault Bool :=
  match x.conversation with
  | none => .error .panic
  | some v => .ok (lib.done v)

/-- The calls that can be made on it. -/
inductive ScramCall where
  | begin (user pass authz : GoStr)
  | step (challenge : GoStr)
  | done

/-- What a call answers. -/
inductive ScramAns (E : Type) where
  | begun (err : Option E)
  | response (r : GoStr) (err : Option E)
  | isDone (b : Bool)

/-- One call. -/
def ScramClient.call {L V E : Type} (lib : ScramLib L V E) (x : ScramClient L V) : ScramCall → Except Fault (ScramClient L V × ScramAns E)
  | .begin u p a => .ok ((x.begin lib u p a).1, .begun (x.begin lib u p a).2)
  | .step c => do
      let r ← x.step lib c
      .ok (r.1, .response r.2.1 r.2.2)
  | .done => do
      let b ← x.done lib
      .ok (x, .isDone b)

/-- Calls one after the other: the answers. -/
def ScramClient.calls {L V E : Type} (lib : ScramLib L V E) (x : ScramClient L V) : List ScramCall → Except Fault (List (ScramAns E))
  | [] => .ok []
  | c :: cs => do
      let r ← x.call lib c
      let rest ← ScramClient.calls lib r.1 cs
      .ok (r.2 :: rest)

end Verif
