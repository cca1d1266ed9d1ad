import Verif.Spec.Kafka
import Verif.Spec.Block
/-! Several Kafka producers of one topic. -/
namespace Verif.Spec

/-- The watchers (`transports/kafka.go:288-291`) read the hash `h` from this message. -/
def Announces (h : Hash) (m : Msg) : Prop := watchKey [] m.key = .ok (.hash h)

/-- Histories of producers, numbered; the events in the order of time. A producer observes a hash only if a message announcing it was
handed over by one of the producers. -/
inductive Fleet (C : Codec) (E : Nat → ErrSched) (s0 : Nat → KP) : List (Nat × KEv) → (Nat → KP) → Prop
  | nil : Fleet C E s0 [] s0
  | snoc {es s i e kp} : Fleet C E s0 es s → KP.Step C (E i) (s i) e kp →
      (∀ h, e = .observed h → ∃ j t m, (t, m) ∈ (s j).sent ∧ Announces h m) →
      Fleet C E s0 (es ++ [(i, e)]) (fun j => if j = i then kp else s j)

/-- Somebody was given the block `h`. -/
def Given (h : Hash) (es : List (Nat × KEv)) : Prop := ∃ i n p w u d b, (i, KEv.addBlock n h p w u d b) ∈ es

/-- The event has nothing to do with the sub-batches `ids`. -/
def Unrelated (ids : Hash → Prop) : KEv → Prop
  | .observed _ | .purge => True
  | .addBlock _ _ _ _ _ _ b => ∀ path id, b.get? path = some id → ¬ ids id
  | .sendBatch i _ _ => ¬ ids i

/-- The sub-batches `l` are sent, each with its data and each call returning nil, and other things may happen in between. -/
inductive Completes (C : Codec) (E : ErrSched) (subs : Hash → SubArgs) (ids : Hash → Prop) (kp : KP) : List Hash → KP → Prop
  | nil : Completes C E subs ids kp [] kp
  | other {l kp1 kp2 e} : Completes C E subs ids kp l kp1 → KP.Step C E kp1 e kp2 → Unrelated ids e → Completes C E subs ids kp l kp2
  | sub {l kp1 kp2 i o o'} : Completes C E subs ids kp l kp1 → ids i → i ∉ l →
      kp1.sendBatch C E o o' i (subs i).deletes (subs i).updates = (kp2, none) → Completes C E subs ids kp (l ++ [i]) kp2

/-- Handed over to Kafka, under some topic. -/
def HandedTo (kp : KP) (m : Msg) : Prop := ∃ topic, (topic, m) ∈ kp.sent

end Verif.Spec
