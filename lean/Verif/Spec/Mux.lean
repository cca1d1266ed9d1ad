import Verif.Model.Mux
/-! What is expected of several transports used as one. -/
namespace Verif.Spec

/-- Every call is made once, in order, each in the state the one before left; `rs` are the results. -/
inductive Called {W R : Type} : List (MCall W R) → W → List R → W → Prop
  | nil {w} : Called [] w [] w
  | cons {c cs w w' r rs w''} : c w = (w', r) → Called cs w' rs w'' → Called (c :: cs) w (r :: rs) w''

/-- `r` is the first error among `rs`, or none if there is none. -/
def FirstError (rs : List (Option Err)) (r : Option Err) : Prop :=
  match r with
  | none => ∀ x ∈ rs, x = none
  | some e => ∃ l1 l2, rs = l1 ++ some e :: l2 ∧ ∀ x ∈ l1, x = none

/-- The least of the answers is `n`. -/
def LeastAnswer (rs : List (Except Err Int)) (n : Int) : Prop := .ok n ∈ rs ∧ ∀ m, .ok m ∈ rs → n ≤ m

/-- The offset of a partition according to the broker that has the topic. -/
def NamedBy (bps : List BrokerParams) (t : Int) (source : GoStr) (v : Int) : Prop :=
  ∃ bp ∈ bps, protocolOf bp.url = str "kafka" ∧ ∃ topic ∈ bp.topics, ∃ parts, bp.broker.partitions topic = some parts ∧
    ∃ part ∈ parts, source = sourceOf topic part ∧ bp.broker.getOffset topic part t = some v

end Verif.Spec
