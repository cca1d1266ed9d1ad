import Verif.Model.Mux
import Verif.Model.Avro
/-!
# The configuration in a Kafka URL and the topics a producer makes: `transports/kafka.go:68-226, 228-244`

Sarama and `net/url` are libraries: what `url.Parse` finds in a URL is given as a value (`KURL`), and what the cluster answers as flags.
-/
namespace Verif

/-- What `url.Parse` finds in a URL, `transports/kafka.go:69`. How a URL is cut into these parts is not modelled here (`kafkaBrokers` in `Model/Mux.lean` is about
the hosts). -/
structure KURL where
  host : GoStr
  /-- The user and, when given, the password. -/
  user : Option (GoStr × Option GoStr)
  /-- The options behind the question mark, in their order. -/
  query : List (GoStr × GoStr)

/-- `parsedURL.Query().Get(key)`: the first value of the key, or the empty string. -/
def KURL.get (u : KURL) (key : GoStr) : GoStr :=
  match u.query.find? (fun e => e.1 = key) with
  | some e => e.2
  | none => []

/-- `sarama.CompressionCodec`. -/
inductive KCodec where
  | none | gzip | snappy | lz4 | zstd
deriving DecidableEq, Repr

/-- `config.Net.SASL.Mechanism` and the generator of SCRAM clients that goes with it, `transports/kafka.go:134-145`. -/
inductive KSasl where
  | unset | scram256 | scram512 | gssapi
deriving DecidableEq, Repr

/-- The fields of `sarama.Config` that `ParseKafkaURL` may set. Durations are in nanoseconds. -/
structure KConfig where
  tls : Bool
  fetchDefault : Int
  maxWait : Int
  codec : KCodec
  retries : Int
  acks : Int
  backoff : Int
  maxOpen : Int
  idempotent : Bool
  /-- Whether `sarama.Logger`, a global variable, is set (:124-126). -/
  log : Bool
  sasl : Bool
  user : GoStr
  password : GoStr
  mechanism : KSasl
deriving DecidableEq, Repr

/-- Two's complement wrap into 16 bits (Go `int16(x)`). -/
def wrap16 (i : Int) : Int := (i + 32768) % 65536 - 32768

/-- `time.Duration(v) * time.Millisecond`. -/
def millis (v : Int) : Int := Avro.wrap64 (v * 1000000)

/-- The options that are taken when they are a number: `transports/kafka.go:76-92`. -/
def numberOr (s : GoStr) (f : Int → Int) (d : Int) : Int :=
  match atoi s with
  | some v => f v
  | none => d

/-- `compression.codec`, `transports/kafka.go:93-107`. -/
def codecOf (s : GoStr) : KCodec :=
  if s = str "gzip" then .gzip
  else if s = str "none" then .none
  else if s = str "lz4" then .lz4
  else if s = str "zstd" then .zstd
  else if s = str "snappy" then .snappy
  else .snappy

/-- `sasl.mechanism`, `transports/kafka.go:134-145`; `d` is what was set before. -/
def mechanismOf (s : GoStr) (d : KSasl) : KSasl :=
  if s = str "SCRAM-SHA-256" then .scram256
  else if s = str "SCRAM-SHA-512" then .scram512
  else if s = str "GSSAPI" then .gssapi
  else d

/-- `ParseKafkaURL`, `transports/kafka.go:68-147`: the brokers and the configuration. `dflt` is what `sarama.NewConfig()` gives (:70), `url` what `url.Parse` returned; its
error is ignored (:69), and without a URL line 73 dereferences a nil pointer. An empty string is no number, so that the tests for it in lines 76 and 84 do nothing
more than to keep a warning from the log. -/
def parseKafkaURL (dflt : KConfig) (url : Option KURL) : Except Fault (List GoStr × KConfig) :=
  match url with
  | none => .error .panic
  | some u => .ok (splitOn 44 u.host,
      { tls := if u.get (str "tls") = str "1" then true else dflt.tls
        fetchDefault := numberOr (u.get (str "fetch.default")) Avro.wrap32 dflt.fetchDefault
        maxWait := numberOr (u.get (str "max.waittime")) millis dflt.maxWait
        codec := codecOf (u.get (str "compression.codec"))
        retries := numberOr (u.get (str "message.send.max.retries")) id 100
        acks := numberOr (u.get (str "request.required.acks")) wrap16 (-1)
        backoff := numberOr (u.get (str "retry.backoff.ms")) millis dflt.backoff
        maxOpen := numberOr (u.get (str "net.maxopenrequests")) id dflt.maxOpen
        idempotent := if u.get (str "idempotent") = str "1" then true else dflt.idempotent
        log := if u.get (str "log") = str "1" then true else dflt.log
        sasl := match u.user with | some _ => true | none => dflt.sasl
        user := match u.user with | some x => x.1 | none => dflt.user
        password := match u.user with | some x => x.2.getD [] | none => dflt.password
        mechanism := mechanismOf (u.get (str "sasl.mechanism")) dflt.mechanism })

/-! ## Topics -/

/-- A topic of the cluster, or one that is asked for: `sarama.TopicDetail`, `transports/kafka.go:192-196`. -/
structure KTopic where
  partitions : Int
  replication : Int
  config : GMap GoStr GoStr

/-- The topics of a cluster. -/
abbrev KCluster := GMap GoStr KTopic

/-- Which of the things that can fail succeed in a call of `CreateTopicIfDoesNotExist`: `sarama.NewClient` (:160), `client.Controller` (:165), `broker.GetMetadata` (:172),
`broker.CreateTopics` (:197) and the creation itself (:206). -/
structure KAnswers where
  client : Bool
  controller : Bool
  metadata : Bool
  request : Bool
  create : Bool
deriving DecidableEq

/-- Everything succeeds. -/
def KAnswers.good : KAnswers := ⟨true, true, true, true, true⟩

/-- A request that a cluster of `brokers` brokers can meet. -/
def KTopic.valid (t : KTopic) (brokers : Nat) : Bool := 1 ≤ t.partitions && 1 ≤ t.replication && t.replication ≤ brokers

/-- What is asked for: `transports/kafka.go:178-196`. `int16` and `int32` of the number of brokers wrap. -/
def topicRequest (brokers : Nat) (numPartitions : Int) (entries : GMap GoStr GoStr) : KTopic where
  partitions := if numPartitions ≤ 0 then Avro.wrap32 (Avro.wrap32 brokers * 2) else numPartitions
  replication := if wrap16 brokers > 3 then 3 else wrap16 brokers
  config := entries.insert (str "max.message.bytes") (str "10000024")

/-- The topic has no partitions, `transports/kafka.go:178`. -/
def GMap.lacks (c : GMap GoStr KTopic) (topic : GoStr) : Bool := match c.get? topic with | some t => t.partitions == 0 | none => true

/-- `CreateTopicIfDoesNotExist`, `transports/kafka.go:152-214`: the cluster afterwards and whether it returned `nil`. A topic that does not exist is reported without partitions.
A cluster does not create a topic with an invalid request. Brokers that create topics by themselves when they are asked for metadata are not modelled. -/
def createTopic (brokers : Nat) (topic : GoStr) (numPartitions : Int) (entries : Option (GMap GoStr GoStr)) (a : KAnswers) (c : KCluster) : KCluster × Bool :=
  if topic = [] then (c, false)
  else if !a.client then (c, false)
  else if !a.controller then (c, false)
  else if !a.metadata then (c, false)
  else if c.lacks topic then
    let t := topicRequest brokers numPartitions (entries.getD .empty)
    if !a.request then (c, false)
    else if !(a.create && t.valid brokers) then (c, false)
    else (c.insert topic t, true)
  else (c, true)

/-- The calls of `NewKafkaProducer` (`transports/kafka.go:235-242`): the topics in their order, each with what happens in its call; it returns at the first error. -/
def createTopics (brokers : Nat) : List (GoStr × KAnswers) → KCluster → KCluster × Bool
  | [], c => (c, true)
  | (topic, a) :: rest, c =>
    match createTopic brokers topic (-1) none a c with
    | (c, false) => (c, false)
    | (c, true) => createTopics brokers rest c

/-- The topics of `NewKafkaProducer`: the default topic and then the values of the schema in any order, `transports/kafka.go:235-242`. -/
def producerTopics (defaultTopic : GoStr) (schema : GMap GoStr GoStr) (o : MapOrder) : List GoStr := defaultTopic :: (o.ord 0 schema.entries).map Prod.snd

/-- `config.Producer.MaxMessageBytes`, `transports/kafka.go:243`. -/
def producerMaxBytes : Nat := 10000024

end Verif
