import Verif.Model.Resolve
/-! What it means to make a producer for a URL (C152). -/
namespace Verif

/-- A URL without the prefix `cardinal://`, if it has it. -/
def Spec.Bare (url b : GoStr) : Prop := url = str "cardinal://" ++ b ∨ (url = b ∧ ∀ r, url ≠ str "cardinal://" ++ r)

/-- `b` is the protocol alone, or the protocol, `://` and something. -/
def Spec.Speaks (b proto : GoStr) : Prop := b = proto ∨ ∃ r, b = proto ++ str "://" ++ r

/-- A websocket URL with this port. -/
def Spec.WsAt (env : MakeEnv) (bp : ProducerParams) (port : Int) : Prop :=
  ∃ b scheme digits, Spec.Bare bp.url b ∧ (Spec.Speaks b (str "ws") ∨ Spec.Speaks b (str "wss")) ∧ env.parse b = .ok (scheme, digits) ∧
    (scheme = str "ws" ∨ scheme = str "wss") ∧ atoi digits = some port

/-- A Kafka URL whose brokers can be used. -/
def Spec.KafkaUp (env : MakeEnv) (bp : ProducerParams) : Prop :=
  ∃ b, Spec.Bare bp.url b ∧ Spec.Speaks b (str "kafka") ∧ env.kafka b bp.defaultTopic bp.schema = none

/-- The kind of producer that a URL is for, if one can be made. -/
inductive Spec.MakesKind (env : MakeEnv) (resumer : Bool) (bp : ProducerParams) : Option Int → Prop
  | ws {port} : resumer = true → Spec.WsAt env bp port → MakesKind env resumer bp (some port)
  | kafka : Spec.KafkaUp env bp → MakesKind env resumer bp none

end Verif
