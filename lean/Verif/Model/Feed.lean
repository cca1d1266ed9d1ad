import Verif.Model.Kafka
/-!
# What a partition holds, and which part of it is read

A partition is the list of the messages the broker still keeps. `PLog.read` is what `ConsumePartition` of sarama does with an
offset or a marker, assuming that the messages do arrive (no timeouts).
-/
namespace Verif

/-- One partition on the broker: `msgs` are the messages still kept, the first of them has offset `oldest`. -/
structure PLog where
  oldest : Nat
  msgs : List Msg

/-- The high water mark: the offset the next message will get. -/
def PLog.newest (l : PLog) : Int := l.oldest + l.msgs.length

/-- The messages delivered by a partition consumer started at an offset or marker; none if the offset is out of range. -/
def PLog.read (l : PLog) (offset : Int) : Option (List Msg) :=
  if offset = OffsetOldest then some l.msgs
  else if offset = OffsetNewest then some []
  else if (l.oldest : Int) ≤ offset ∧ offset ≤ l.newest then some (l.msgs.drop (offset - l.oldest).toNat)
  else none

/-- The messages read by the watchers of `NewKafkaProducer` (`transports/kafka.go:270-279`) and by `LatestBlockFromFeed`
(`transports/kafka.go:421-427`) from a partition whose newest offset is known. -/
def PLog.recent (l : PLog) : List Msg :=
  let offset := l.newest - 100
  let offset := if offset < 0 then OffsetOldest else offset
  match l.read offset with
  | some ms => ms
  | none => (l.read OffsetOldest).getD []

/-- `KafkaProducer.LatestBlockFromFeed`, `transports/kafka.go:405-452`: the partitions of the default topic; `none` if asking for the newest
offset fails. The loop reads on to the high water mark. -/
def latestFromFeed (C : Codec) (parts : List (Option PLog)) : Int :=
  latestScanned C (parts.map (fun
    | none => []
    | some l => if l.newest = 0 then [] else l.recent))

/-- The answers of a broker that has one partition of every topic in this state. -/
def PLog.broker (l : PLog) : Broker where
  getOffset _ _ t := if t = OffsetNewest then some l.newest else if t = OffsetOldest then some l.oldest else none
  consume _ _ o := (l.read o).isSome
  partitions _ := some [0]

/-- The sub-consumer for a reorg topic, `transports/kafka.go:668-677`: the fields not named there are zero. -/
def reorgKC : KC := { resumption := GMap.empty, rollback := 0, startHash := Hash.zero, isReorg := true }

/-- The messages of a partition of the reorg topic the sub-consumer gets: those kept when it starts, from its start offset on,
and those that come later. -/
def reorgReads (l : PLog) (topic : GoStr) (later : List Msg) : Option (List Msg) :=
  match reorgKC.start l.broker topic 0 with
  | .error _ => none
  | .ok o => (l.read o).map (· ++ later)

/-- Messages as received: source and first offset. -/
def received (source : GoStr) (first : Nat) (ms : List Msg) : List RMsg :=
  ms.zipIdx.map (fun e => ⟨e.1.key, e.1.value, ((first + e.2 : Nat) : Int), source⟩)

end Verif
