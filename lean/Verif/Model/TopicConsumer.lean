/-
The consumer of all partitions of a topic, `utils/kafka.go`.

Modelled: `NewTopicConsumer` (:21-48), `Messages` (:50-52) and `Close` (:54-59), with the goroutine of each partition (:39-43), the channel they share
(:32), one reader of `Messages()` and one call of `Close`.

Simplifications:
* A partition is the list of the messages that its partition consumer offers while it is open: what Sarama puts into `pc.Messages()` one by one. When
  a partition consumer is closed, Sarama closes that channel; what was still to come is lost, and what was still in the channel may be received by the
  goroutine or thrown away: the goroutine goes on with any sublist of it.
* `pc.Close()` and `tc.consumer.Close()` return, with or without an error.
* A channel with a buffer is the list of its elements; a send into a channel whose receiver is waiting is a step of its own, so that a buffer of zero is
  possible. There is no other waiting sender or receiver than those given here.
* Messages are of any type.
-/

namespace Verif

variable {α : Type}

/-- One partition and its goroutine, `utils/kafka.go:39-43`. -/
structure TPart (α : Type) where
  /-- What `pc.Messages()` still gives. -/
  todo : List α
  /-- The message that the goroutine has taken and not yet sent (:41). -/
  hand : Option α
  /-- `pc.Close()` has been called (:56). -/
  closed : Bool
  /-- The goroutine has left its loop (:40). -/
  ended : Bool
deriving DecidableEq, Repr

/-- A partition that has just been opened, `utils/kafka.go:37-44`. -/
def TPart.opened (l : List α) : TPart α := ⟨l, none, false, false⟩

/-- The call of `Close`, `utils/kafka.go:54-59`. -/
inductive TCloser where
  /-- Nobody has the topic consumer, so that nobody can call it: `NewTopicConsumer` has returned an error. -/
  | lost
  /-- Not called. -/
  | idle
  /-- It goes on with the partition of this number (:55). -/
  | at (i : Nat)
  /-- It has returned an error (:56). -/
  | failed
  /-- It has returned the result of `tc.consumer.Close()` (:58). -/
  | done (err : Bool)
deriving DecidableEq, Repr

/-- The reader of `Messages()`. -/
inductive TReader where
  /-- It ranges over the channel. -/
  | reading
  /-- It has stopped receiving. -/
  | away
  /-- It has been told that the channel is closed. -/
  | over
deriving DecidableEq, Repr

/-- A topic consumer, `utils/kafka.go:15-19`, with its reader. -/
structure TSys (α : Type) where
  parts : List (TPart α)
  /-- The elements of the channel `messages` (:32), with the number of the partition they are from. -/
  chan : List (Nat × α)
  /-- The capacity of that channel (:32). -/
  cap : Nat
  /-- The channel has been closed. -/
  shut : Bool
  /-- What the reader has received. -/
  got : List (Nat × α)
  reader : TReader
  closer : TCloser
  /-- The Sarama client (:24) has been closed. -/
  clientClosed : Bool

/-- A topic consumer whose partitions offer `ls`, as `NewTopicConsumer` returns it (`utils/kafka.go:32-47`) and with a reader. -/
def TSys.init (cap : Nat) (ls : List (List α)) : TSys α :=
  ⟨ls.map TPart.opened, [], cap, false, [], .reading, .idle, false⟩

/-- Changes one partition. -/
def TSys.upd (s : TSys α) (i : Nat) (p : TPart α) : TSys α := { s with parts := s.parts.set i p }

/-- What can happen next. -/
inductive TSys.Step : TSys α → TSys α → Prop where
  /-- `for input := range pc.Messages()`, `utils/kafka.go:40`. -/
  | read {s i p m rest} : s.parts[i]? = some p → p.todo = m :: rest → p.hand = none → p.ended = false →
      Step s (s.upd i { p with todo := rest, hand := some m })
  /-- `tc.messages <- input` when there is room, `utils/kafka.go:41`. -/
  | send {s i p m} : s.parts[i]? = some p → p.hand = some m → s.chan.length < s.cap →
      Step s { s.upd i { p with hand := none } with chan := s.chan ++ [(i, m)] }
  /-- `tc.messages <- input` when the channel is empty and the reader waits for it, `utils/kafka.go:41`. -/
  | meet {s i p m} : s.parts[i]? = some p → p.hand = some m → s.chan = [] → s.reader = .reading →
      Step s { s.upd i { p with hand := none } with got := s.got ++ [(i, m)] }
  /-- The reader receives from `Messages()`, `utils/kafka.go:50-52`. -/
  | recv {s x rest} : s.chan = x :: rest → s.reader = .reading → Step s { s with chan := rest, got := s.got ++ [x] }
  /-- The loop of the reader ends when the channel is closed and empty. -/
  | over {s} : s.chan = [] → s.shut = true → s.reader = .reading → Step s { s with reader := .over }
  /-- The reader stops receiving. -/
  | leave {s} : s.reader = .reading → Step s { s with reader := .away }
  /-- The loop of a goroutine ends when its partition consumer is closed, `utils/kafka.go:40`. -/
  | stop {s i p} : s.parts[i]? = some p → p.todo = [] → p.hand = none → p.closed = true → p.ended = false →
      Step s (s.upd i { p with ended := true })
  /-- `Close` is called, `utils/kafka.go:54`. -/
  | call {s} : s.closer = .idle → Step s { s with closer := .at 0 }
  /-- `pc.Close()` returns `nil`, `utils/kafka.go:56`. -/
  | close {s i p kept} : s.closer = .at i → s.parts[i]? = some p → List.Sublist kept p.todo →
      Step s { s.upd i { p with todo := kept, closed := true } with closer := .at (i + 1) }
  /-- `pc.Close()` returns an error, `utils/kafka.go:56`. -/
  | closeErr {s i p kept} : s.closer = .at i → s.parts[i]? = some p → List.Sublist kept p.todo →
      Step s { s.upd i { p with todo := kept, closed := true } with closer := .failed }
  /-- `return tc.consumer.Close()`, `utils/kafka.go:58`. A consumer made from a client does not close the client. -/
  | closeAll {s} {i : Nat} (err : Bool) : s.closer = .at i → s.parts[i]? = none → Step s { s with closer := .done err }

/-- Executions of `n` steps. -/
inductive TSys.Steps : TSys α → Nat → TSys α → Prop where
  | refl {s} : Steps s 0 s
  | step {s n t u} : Steps s n t → TSys.Step t u → Steps s (n + 1) u

/-- What `tc.consumer.ConsumePartition` answers, `utils/kafka.go:37`: a partition consumer that offers these messages, or an error. -/
abbrev TConsume (α : Type) := Option (List α)

/-- The loop of `NewTopicConsumer`, `utils/kafka.go:36-46`: the partitions that have been opened, and whether all were. -/
def topicLoop : List (TConsume α) → List (List α) × Bool
  | [] => ([], true)
  | none :: _ => ([], false)
  | some l :: rest => let (ls, ok) := topicLoop rest; (l :: ls, ok)

/-- A topic consumer that `NewTopicConsumer` does not return: its goroutines run, nobody reads and nobody can call `Close`. -/
def TSys.lost (cap : Nat) (ls : List (List α)) : TSys α := { TSys.init cap ls with reader := .away, closer := .lost }

/-- What `NewTopicConsumer` returns, and what it leaves behind: `utils/kafka.go:21-48`. -/
inductive TMade (α : Type) where
  /-- `make` panics when the buffer is negative (:32). -/
  | panic
  /-- An error, and the goroutines that run (:26, :30, :35, :38), with the topic consumer that the caller does not get. Without goroutines and partitions it is
  the one with no partitions. -/
  | err (left : TSys α)
  /-- A topic consumer (:47). -/
  | ok (tc : TSys α)

/-- `NewTopicConsumer`, `utils/kafka.go:21-48`. `client` and `consumer`: whether `sarama.NewClient` (:24) and `sarama.NewConsumerFromClient` (:28) succeed;
`parts`: what `tc.consumer.Partitions` (:33) gives, for each partition what `ConsumePartition` answers. -/
def newTopicConsumer (buffer : Int) (client consumer : Bool) (parts : Option (List (TConsume α))) : TMade α :=
  if !client || !consumer then .err (.lost 0 [])
  else if buffer < 0 then .panic
  else match parts with
    | none => .err (.lost buffer.toNat [])
    | some rs =>
      let (ls, ok) := topicLoop rs
      if ok then .ok (TSys.init buffer.toNat ls) else .err (.lost buffer.toNat ls)

end Verif
