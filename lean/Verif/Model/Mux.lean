import Verif.Model.Kafka
/-!
# Several transports at once: `transports/resolver.go`

A method call of a transport is a function of the state of everything outside (`W`); what the transports are does not matter here.
-/
namespace Verif

/-- A method call with its arguments filled in: from the state before to the state after and the result. -/
abbrev MCall (W R : Type) := W → W × R

/-- The loop of `muxProducer.AddBlock` and `SendBatch`, `transports/resolver.go:260-264, 271-275`. -/
def muxErrs {W : Type} : List (MCall W (Option Err)) → W → List Err → W × List Err
  | [], w, errs => (w, errs)
  | c :: cs, w, errs => match c w with
    | (w, some e) => muxErrs cs w (errs ++ [e])
    | (w, none) => muxErrs cs w errs

/-- `muxProducer.AddBlock`, `SendBatch`, `transports/resolver.go:258-278`; `cs` are the calls of the producers. -/
def muxCall {W : Type} (cs : List (MCall W (Option Err))) : MCall W (Option Err) := fun w =>
  let (w, errs) := muxErrs cs w []
  (w, errs.head?)

/-- The loop of `muxProducer.Reorg`, `transports/resolver.go:283-290`. -/
def muxReorgs {W : Type} : List (MCall W (Except Err (W → W))) → W → List Err → List (W → W) → W × List Err × List (W → W)
  | [], w, errs, fns => (w, errs, fns)
  | c :: cs, w, errs, fns => match c w with
    | (w, .error e) => muxReorgs cs w (errs ++ [e]) fns
    | (w, .ok fn) => muxReorgs cs w errs (fns ++ [fn])

/-- `muxProducer.Reorg`, `transports/resolver.go:280-298`: the function returned and the error. -/
def muxReorg {W : Type} (cs : List (MCall W (Except Err (W → W)))) : MCall W ((W → W) × Option Err) := fun w =>
  let (w, errs, fns) := muxReorgs cs w [] []
  (w, fun w => fns.foldl (fun w fn => fn w) w, errs.head?)

/-- The loop of `muxProducer.LatestBlockFromFeed`, `transports/resolver.go:242-251`. -/
def muxLatests {W : Type} : List (MCall W (Except Err Int)) → W → Int → Option Err → W × Int × Option Err
  | [], w, n, topErr => (w, n, topErr)
  | c :: cs, w, n, topErr => match c w with
    | (w, .error e) => muxLatests cs w n (some e)
    | (w, .ok v) => muxLatests cs w (if v < n then v else n) topErr

/-- `muxProducer.LatestBlockFromFeed`, `transports/resolver.go:239-256`: number and error. -/
def muxLatest {W : Type} (cs : List (MCall W (Except Err Int))) : MCall W (Int × Option Err) := fun w =>
  let (w, n, topErr) := muxLatests cs w 9223372036854775807 none
  if n < 9223372036854775807 then (w, n, none) else (w, 0, topErr)

/-- The loops of `ProducerCount`, `transports/resolver.go:144-150, 225-231`; `uint` has 64 bits. -/
def muxCounts {W : Type} : List (MCall W UInt64) → W → UInt64 → W × UInt64
  | [], w, count => (w, count)
  | c :: cs, w, count => match c w with
    | (w, k) => muxCounts cs w (count + k)

/-- `muxConsumer.ProducerCount`, `muxProducer.ProducerCount`. -/
def muxCount {W : Type} (cs : List (MCall W UInt64)) : MCall W UInt64 := fun w => muxCounts cs w 0

/-- The loop of `muxConsumer.Start`, `transports/resolver.go:154-160`. -/
def muxStarts {W : Type} : List (MCall W (Option Err)) → W → Nat → W × Nat
  | [], w, k => (w, k)
  | c :: cs, w, k => match c w with
    | (w, some _) => muxStarts cs w (k + 1)
    | (w, none) => muxStarts cs w k

/-- `muxConsumer.Start`, `transports/resolver.go:152-165`. -/
def muxStart {W : Type} (cs : List (MCall W (Option Err))) : MCall W (Option Err) := fun w =>
  let (w, k) := muxStarts cs w 0
  (w, if k = cs.length then some (.other 0) else none)

/-- The loop of `muxConsumer.WhyNotReady`, `transports/resolver.go:205-212`. -/
def muxWhyNotReady {W : Type} : List (MCall W GoStr) → MCall W GoStr
  | [], w => (w, str "no consumers to report")
  | c :: cs, w => match c w with
    | (w, v) => if v ≠ [] then (w, v) else muxWhyNotReady cs w

/-- The calls of `SetHealth`, `PurgeReplayCache`, `Close`: `transports/resolver.go:172-176, 233-237, 300-304`. -/
def muxEach {W : Type} (cs : List (W → W)) (w : W) : W := cs.foldl (fun w c => c w) w

/-! ## URLs -/

/-- `strings.TrimPrefix`. -/
def trimPrefix (p s : GoStr) : GoStr := if p.isPrefixOf s then s.drop p.length else s

/-- The first part of `strings.Split(s, "://")`. -/
def beforeSep : GoStr → GoStr
  | [] => []
  | c :: cs => if (str "://").isPrefixOf (c :: cs) then [] else c :: beforeSep cs

/-- The protocol of a broker URL, `transports/resolver.go:19, 28, 59, 78`. -/
def protocolOf (url : GoStr) : GoStr := beforeSep (trimPrefix (str "cardinal://") url)

/-- What follows the last '@', or all. -/
def afterAt (s : GoStr) : GoStr := (s.reverse.takeWhile (· ≠ 64)).reverse

/-- The brokers of `ParseKafkaURL`, `transports/kafka.go:68-69, 146`: the authority of the URL (up to '/', '?' or '#') without
user data, split at commas. Percent escapes in the host and URLs that do not parse (nil pointer dereference in line 73) are not
modelled. -/
def kafkaBrokers (url : GoStr) : List GoStr :=
  splitOn 44 (afterAt ((trimPrefix (str "kafka://") url).takeWhile (fun c => c ≠ 47 ∧ c ≠ 63 ∧ c ≠ 35)))

/-- The brokers a producer made by `ResolveProducerWithResumer` connects to: `transports/resolver.go:32`, `kafka.go:234`. -/
def producerBrokers (url : GoStr) : List GoStr := kafkaBrokers (trimPrefix (str "kafka://") (trimPrefix (str "cardinal://") url))

/-- The brokers a consumer made by `resolveConsumer` connects to: `transports/resolver.go:61`, `kafka.go:485`. -/
def consumerBrokers (url : GoStr) : List GoStr := kafkaBrokers (trimPrefix (str "kafka://") url)

/-- `BrokerParams`, `transports/resolver.go:109-114`, and the broker behind the URL. -/
structure BrokerParams where
  url : GoStr
  defaultTopic : GoStr
  topics : List GoStr
  rollback : Int
  broker : Broker

/-- The loop of `ResumptionForTimestamp`, `transports/resolver.go:77-89`. -/
def muxResumptions (timestamp : Int) : List BrokerParams → List GoStr → Except Err (List GoStr)
  | [], results => .ok results
  | bp :: bps, results =>
    if protocolOf bp.url = str "kafka" then
      match kafkaResumptionForTimestamp bp.broker bp.topics timestamp with
      | .error e => .error e
      | .ok res => muxResumptions timestamp bps (results ++ [res])
    else if protocolOf bp.url = str "null" then muxResumptions timestamp bps results
    else .error (.other 3)

/-- `ResumptionForTimestamp`, `transports/resolver.go:75-91`. -/
def resumptionForTimestamp (bps : List BrokerParams) (timestamp : Int) : Except Err GoStr :=
  match muxResumptions timestamp bps [] with
  | .error e => .error e
  | .ok results => .ok (joinWith 59 results)

/-- The kinds of consumers. -/
inductive ConsumerKind where
  | kafka | ws | null
deriving DecidableEq

/-- `resolveConsumer`, `transports/resolver.go:58-73`: which constructor is called. -/
def resolveConsumer (url : GoStr) : Except Err ConsumerKind :=
  if protocolOf url = str "kafka" then .ok .kafka
  else if protocolOf url = str "ws" ∨ protocolOf url = str "wss" then .ok .ws
  else if protocolOf url = str "null" then .ok .null
  else .error (.other 4)

end Verif
