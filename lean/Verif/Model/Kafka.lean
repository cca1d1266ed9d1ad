import Verif.Model.Avro
import Verif.Model.Consumer
import Verif.Model.Producer
/-!
# `transports/kafka.go`

The brokers and the sarama client are the environment: their replies are arguments. Time is a number of nanoseconds.
Goroutines only pass messages on; what each of them does to one message is modelled here.
-/
namespace Verif

/-! ## Resumption strings -/

/-- `strings.Split(s, sep)` for a one-byte separator. -/
def splitOn (sep : UInt8) : GoStr → List GoStr
  | [] => [[]]
  | c :: s =>
    if c = sep then [] :: splitOn sep s
    else match splitOn sep s with
      | [] => [[c]]
      | t :: ts => (c :: t) :: ts

/-- The value of a decimal digit; bytes 48 to 57 are '0' to '9'. -/
def digit? (c : UInt8) : Option Nat := if 48 ≤ c ∧ c ≤ 57 then some (c.toNat - 48) else none

/-- Digits, most significant first. -/
def digitsNat : Nat → GoStr → Option Nat
  | acc, [] => some acc
  | acc, c :: s => match digit? c with
    | none => none
    | some d => digitsNat (acc * 10 + d) s

/-- The largest and the smallest int64. -/
def maxInt64 : Int := 9223372036854775807
def minInt64 : Int := -9223372036854775808

/-- Whether a number starts with '-' (45), and what follows the sign ('+' is 43). -/
def signOf : GoStr → Bool × GoStr
  | [] => (false, [])
  | c :: t => if c = 45 then (true, t) else if c = 43 then (false, t) else (false, c :: t)

/-- `strconv.Atoi` (64 bits): an optional sign, at least one digit, in range. -/
def atoi (s : GoStr) : Option Int :=
  if (signOf s).2 = [] then none else
  match digitsNat 0 (signOf s).2 with
  | none => none
  | some n =>
    let i : Int := if (signOf s).1 then -(n : Int) else n
    if minInt64 ≤ i ∧ i ≤ maxInt64 then some i else none

/-- One round of the loop of `transports/kafka.go:478-484`; 61 is '='. -/
def parseToken (m : GMap GoStr Int) (token : GoStr) : Except Err (GMap GoStr Int) :=
  match splitOn 61 token with
  | [k, v] => match atoi v with
    | none => .error .decode
    | some offset => .ok (m.insert k offset)
  | _ => .ok m

/-- The resumption parser, `transports/kafka.go:477-484`; 59 is ';'. -/
def parseResumption (resumption : GoStr) : Except Err (GMap GoStr Int) :=
  (splitOn 59 resumption).foldlM parseToken GMap.empty

/-- `KafkaResumptionMessage.Source`, `transports/kafka.go:55-57`, and the key of `transports/kafka.go:553`; 58 is ':'. -/
def sourceOf (topic : GoStr) (part : Int) : GoStr := topic ++ 58 :: intDigits part

/-! ## Start offsets -/

/-- `sarama.OffsetNewest` and `sarama.OffsetOldest`. -/
def OffsetNewest : Int := -1
def OffsetOldest : Int := -2

/-- What the broker answers: offsets for a time or a marker (`GetOffset`), and whether consuming from an offset is accepted
(`ConsumePartition`). -/
structure Broker where
  getOffset : GoStr → Int → Int → Option Int
  consume : GoStr → Int → Int → Bool
  partitions : GoStr → Option (List Int)

/-- `KafkaConsumer`, `transports/kafka.go:459-474`, as far as `Start` uses it for the offsets. -/
structure KC where
  resumption : GMap GoStr Int
  rollback : Int
  startHash : Hash
  isReorg : Bool := false

/-- `transports/kafka.go:553-573`: `offset` and `startOffset`. -/
def KC.offsets (B : Broker) (kc : KC) (topic : GoStr) (part : Int) : Int × Int :=
  let resumed := kc.resumption.get? (sourceOf topic part)
  let offset := resumed.getD 0
  if resumed = none ∨ offset < kc.rollback then
    if kc.startHash = Hash.zero ∧ kc.rollback ≥ 0 then
      match B.getOffset topic part OffsetNewest with
      | none => (OffsetNewest, OffsetNewest)
      | some n => (n, Avro.wrap64 (n - 1))
    else (OffsetOldest, OffsetOldest)
  else (offset, Avro.wrap64 (offset - kc.rollback))

/-- `transports/kafka.go:553-579`: the offset the partition is consumed from. -/
def KC.start (B : Broker) (kc : KC) (topic : GoStr) (part : Int) : Except Err Int :=
  let (offset, startOffset) := kc.offsets B topic part
  if B.consume topic part startOffset then .ok startOffset
  else if B.consume topic part offset then .ok offset
  else .error (.other 0)

/-- The body of the loops of `transports/kafka.go:516-526` for the partitions of one topic. -/
def partitionTokens (B : Broker) (topic : GoStr) (timestamp : Int) : List Int → Except Err (List GoStr)
  | [] => .ok []
  | part :: parts => match B.getOffset topic part timestamp with
    | none => .error (.other 1)
    | some offset => match partitionTokens B topic timestamp parts with
      | .error e => .error e
      | .ok rest => .ok ((sourceOf topic part ++ 61 :: intDigits offset) :: rest)

/-- `transports/kafka.go:516-526`. -/
def topicTokens (B : Broker) (timestamp : Int) : List GoStr → Except Err (List GoStr)
  | [] => .ok []
  | topic :: topics => match B.partitions topic with
    | none => .error (.other 2)
    | some parts => match partitionTokens B topic timestamp parts with
      | .error e => .error e
      | .ok l => match topicTokens B timestamp topics with
        | .error e => .error e
        | .ok rest => .ok (l ++ rest)

/-- `kafkaResumptionForTimestamp`, `transports/kafka.go:508-528`. -/
def kafkaResumptionForTimestamp (B : Broker) (topics : List GoStr) (timestamp : Int) : Except Err GoStr :=
  match topicTokens B timestamp topics with
  | .error e => .error e
  | .ok l => .ok (joinWith 59 l)

/-! ## Heartbeats -/

/-- `pingTracker`, `transports/kafka.go:31`. -/
abbrev PingTracker := GMap Hash Int

/-- `pingTracker.update`, `transports/kafka.go:33-35`, at time `now`. -/
def PingTracker.update (pt : PingTracker) (key : Hash) (now : Int) : PingTracker := pt.insert key now

/-- `time.Since`: saturates at the largest and smallest duration. -/
def since (now t : Int) : Int := if now - t > maxInt64 then maxInt64 else if now - t < minInt64 then minInt64 else now - t

/-- `pingTracker.ProducerCount`, `transports/kafka.go:37-46`, at time `now`. -/
def PingTracker.producerCount (pt : PingTracker) (now d : Int) : UInt64 :=
  pt.entries.foldl (fun count e => if since now e.2 < d then count + 1 else count) 0

/-! ## The producer -/

/-- `KafkaProducer`, `transports/kafka.go:216-226`. `sent` lists what has been put on `producer.Input()`; `tick` counts calls of
`emit`. The channel of the connection, the URL and the health flag are left out. -/
structure KP where
  dp : Producer
  reorgTopic : GoStr
  recentHashes : LRU Hash
  skipBatches : LRU Hash
  sent : List (GoStr × Msg)
  tick : Nat

/-- The part of `NewKafkaProducer`, `transports/kafka.go:301-303`, that makes the struct. -/
def newKP (dp : Producer) : KP :=
  { dp := dp, reorgTopic := [], recentHashes := LRU.new 4096, skipBatches := LRU.new 1024, sent := [], tick := 0 }

/-- What the `k`-th `select` of `emit` does: hand the message over (`none`) or take an error from an earlier message. -/
abbrev ErrSched := Nat → Option Err

/-- `KafkaProducer.emit`, `transports/kafka.go:342-350`. -/
def KP.emit (E : ErrSched) (kp : KP) (topic : GoStr) (m : Msg) : KP × Option Err :=
  match E kp.tick with
  | none => ({ kp with sent := kp.sent ++ [(topic, m)], tick := kp.tick + 1 }, none)
  | some e => ({ kp with tick := kp.tick + 1 }, some e)

/-- The messages of one topic, `transports/kafka.go:335-337`. -/
def KP.emitAll (E : ErrSched) : KP → GoStr → List Msg → KP × Option Err
  | kp, _, [] => (kp, none)
  | kp, topic, m :: ms => match kp.emit E topic m with
    | (kp, some e) => (kp, some e)
    | (kp, none) => KP.emitAll E kp topic ms

/-- The topics in the order of the `range`. -/
def KP.emitTopics (E : ErrSched) : KP → List (GoStr × List Msg) → KP × Option Err
  | kp, [] => (kp, none)
  | kp, (topic, msgs) :: rest =>
    match KP.emitAll E kp (if kp.reorgTopic ≠ [] then kp.reorgTopic else topic) msgs with
    | (kp, some e) => (kp, some e)
    | (kp, none) => KP.emitTopics E kp rest

/-- `KafkaProducer.emitBundle`, `transports/kafka.go:332-340`. -/
def KP.emitBundle (E : ErrSched) (o : MapOrder) (kp : KP) (bundle : GMap GoStr (List Msg)) : KP × Option Err :=
  KP.emitTopics E kp (o.ord 0 bundle.entries)

/-- Adding keys to a cache one after the other. -/
def LRU.addAll {K : Type} [DecidableEq K] (c : LRU K) (ks : List K) : LRU K := ks.foldl (fun c k => (c.add k).1) c

/-- `KafkaProducer.AddBlock`, `transports/kafka.go:352-365`. `o` orders the ranges of `Producer.AddBlock`, `o'` those here. -/
def KP.addBlock (C : Codec) (E : ErrSched) (o o' : MapOrder) (kp : KP) (number : Int) (hash parentHash : Hash) (weight : Int)
    (updates : GMap GoStr Bytes) (deletes : GMap GoStr Unit) (batches : GMap GoStr Hash) : KP × Option Err :=
  if kp.recentHashes.contains hash then
    ({ kp with skipBatches := kp.skipBatches.addAll ((o'.ord 1 batches.entries).map Prod.snd) }, none)
  else match Verif.addBlock C o kp.dp number hash parentHash weight updates deletes batches with
    | (dp, .error e) => ({ kp with dp := dp }, some e)
    | (dp, .ok msgs) => KP.emitBundle E o' { kp with dp := dp } msgs

/-- `KafkaProducer.SendBatch`, `transports/kafka.go:366-373`. -/
def KP.sendBatch (C : Codec) (E : ErrSched) (o o' : MapOrder) (kp : KP) (batchid : Hash) (deletes : List GoStr)
    (update : GMap GoStr Bytes) : KP × Option Err :=
  match Verif.sendBatch C o kp.dp batchid deletes update with
  | (dp, .error e) =>
    if e = .unknownBatch ∧ kp.skipBatches.contains batchid then ({ kp with dp := dp }, none) else ({ kp with dp := dp }, some e)
  | (dp, .ok msgs) => KP.emitBundle E o' { kp with dp := dp } msgs

/-- `case h := <-hashCh`, `transports/kafka.go:313-314`. -/
def KP.observe (kp : KP) (h : Hash) : KP := { kp with recentHashes := (kp.recentHashes.add h).1 }

/-- `KafkaProducer.PurgeReplayCache`, `transports/kafka.go:454-457`. -/
def KP.purge (kp : KP) : KP := { kp with recentHashes := kp.recentHashes.purge, skipBatches := kp.skipBatches.purge }

/-- What the watcher of the own topic does with a key, `transports/kafka.go:288-296`; `id` is the producer's own id. -/
inductive WatchEv where
  | nothing
  | hash (h : Hash)
  | heartbeat (h : Hash)
deriving DecidableEq

/-- `transports/kafka.go:288-296`. Slicing a short key panics. -/
def watchKey (id : Bytes) (key : Bytes) : Except Fault WatchEv :=
  match key with
  | [] => .ok .nothing
  | t :: rest =>
    if t = BatchType then
      if key.length < 33 then .error .panic else .ok (.hash (bytesToHash (rest.take 32)))
    else if t = PingType then
      if rest = id then .ok .nothing else .ok (.heartbeat (bytesToHash rest))
    else .ok .nothing

/-- One round of the scan of `KafkaProducer.LatestBlockFromFeed`, `transports/kafka.go:436-444`. -/
def scanStep (C : Codec) (highest : Int) (m : Msg) : Int :=
  match m.key with
  | [] => highest
  | t :: _ =>
    if t = BatchType then
      match C.decBatch m.value with
      | none => highest
      | some b => if b.number > highest then b.number else highest
    else highest

/-- `KafkaProducer.LatestBlockFromFeed`, `transports/kafka.go:405-452`, given for every partition that answers the messages
read before its loop ends. -/
def latestScanned (C : Codec) (parts : List (List Msg)) : Int := parts.flatten.foldl (scanStep C) 0

/-! ## The consumer's dispatcher -/

/-- What `transports/kafka.go:657-695` does with a message. -/
inductive Dispatch where
  /-- empty key, `:658-664` -/
  | heartbeatGauge
  /-- start a consumer for the reorg topic and wait for it, `:667-680` -/
  | reorgConsumer (topic : GoStr)
  /-- pass it to `ProcessMessage`, `:683,692` -/
  | process
  /-- `heartbeats <- …`, `:688` -/
  | ping (h : Hash)
  /-- `reorgWg.Done()`, `:690` -/
  | reorgDone
deriving DecidableEq

/-- Lower case hexadecimal, `%x`. -/
def hexDigit (n : Nat) : UInt8 := if n < 10 then UInt8.ofNat (48 + n) else UInt8.ofNat (87 + n)
def hexBytes (b : Bytes) : GoStr := b.flatMap (fun c => [hexDigit (c.toNat / 16), hexDigit (c.toNat % 16)])

/-- `transports/kafka.go:657-695`: the action and the new counter of `reorgWg`. A negative counter of a `sync.WaitGroup` panics. -/
def KC.dispatch (isReorg : Bool) (defaultTopic : GoStr) (wg : Nat) (key : Bytes) : Except Fault (Dispatch × Nat) :=
  match key with
  | [] => .ok (.heartbeatGauge, wg)
  | t :: rest =>
    if t = ReorgType then
      if isReorg then .ok (.process, wg + 1)
      else .ok (.reorgConsumer (defaultTopic ++ [45, 114, 101, 45] ++ hexBytes rest), wg)
    else if t = PingType then .ok (.ping (bytesToHash rest), wg)
    else if t = ReorgCompleteType then
      match wg with
      | 0 => .error .panic
      | n + 1 => .ok (.reorgDone, n)
    else .ok (.process, wg)

/-- The messages passed on to `ProcessMessage`, in order, when the dispatcher handles `msgs`. -/
def KC.dispatchAll (isReorg : Bool) (defaultTopic : GoStr) : Nat → List RMsg → Except Fault (List RMsg × Nat)
  | wg, [] => .ok ([], wg)
  | wg, m :: ms => match KC.dispatch isReorg defaultTopic wg m.key with
    | .error f => .error f
    | .ok (a, wg) => match KC.dispatchAll isReorg defaultTopic wg ms with
      | .error f => .error f
      | .ok (l, wg) => .ok (if a = .process then m :: l else l, wg)

end Verif
