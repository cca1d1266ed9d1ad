import Verif.Model.Kafka
/-! What is expected of the Kafka transport. -/
namespace Verif.Spec

/-- The source name can be written into a resumption string: no ';' (59) and no '=' (61). -/
def CleanName (s : GoStr) : Prop := (59 : UInt8) ∉ s ∧ (61 : UInt8) ∉ s

instance (s : GoStr) : Decidable (CleanName s) := inferInstanceAs (Decidable (_ ∧ _))

/-- The offset recorded for a source: the block's own, else the one the processor had before the block. -/
def recorded (pb : PB) (source : GoStr) : Option Int := (pb.resumption.get? source).or (pb.resumptionDefaults.get? source)

/-- The names and offsets of the block can be written into a resumption string. -/
def Writable (pb : PB) : Prop :=
  ∀ k v, pb.resumption.get? k = some v ∨ pb.resumptionDefaults.get? k = some v → CleanName k ∧ InInt64 v

/-- The time of the last heartbeat of a producer in a history (oldest first). -/
def lastBeat (hist : List (Hash × Int)) (id : Hash) : Option Int := (hist.reverse.find? (fun e => e.1 = id)).map Prod.snd

/-- `h` was seen, and since its last sighting fewer than `n` different others. -/
def SeenLately (n : Nat) (hist : List Hash) (h : Hash) : Prop :=
  ∃ l1 l2, hist = l1 ++ h :: l2 ∧ h ∉ l2 ∧ ∀ L : List Hash, L.Nodup → (∀ x ∈ L, x ∈ l2) → L.length < n

/-- The messages of a bundle, topic after topic, the topics in some order and each topic's messages in the given order. -/
def Listing (bundle : GMap GoStr (List Msg)) (l : List (GoStr × Msg)) : Prop :=
  ∃ es : List (GoStr × List Msg), es.Perm bundle.entries ∧ l = es.flatMap (fun e => e.2.map (fun m => (e.1, m)))

/-- What happens to a Kafka producer. -/
inductive KEv where
  | observed (h : Hash)
  | addBlock (number : Int) (hash parentHash : Hash) (weight : Int) (updates : GMap GoStr Bytes) (deletes : GMap GoStr Unit)
      (batches : GMap GoStr Hash)
  | sendBatch (batchid : Hash) (deletes : List GoStr) (update : GMap GoStr Bytes)
  | purge

/-- One event; the results of calls are dropped. -/
inductive KP.Step (C : Codec) (E : ErrSched) : KP → KEv → KP → Prop
  | observed {kp h} : KP.Step C E kp (.observed h) (kp.observe h)
  | addBlock {kp o o' n h p w u d b} : KP.Step C E kp (.addBlock n h p w u d b) (kp.addBlock C E o o' n h p w u d b).1
  | sendBatch {kp o o' i d u} : KP.Step C E kp (.sendBatch i d u) (kp.sendBatch C E o o' i d u).1
  | purge {kp} : KP.Step C E kp .purge kp.purge

/-- A history of events, oldest first. -/
inductive KP.Run (C : Codec) (E : ErrSched) (kp : KP) : List KEv → KP → Prop
  | nil : KP.Run C E kp [] kp
  | snoc {es e kp1 kp2} : KP.Run C E kp es kp1 → KP.Step C E kp1 e kp2 → KP.Run C E kp (es ++ [e]) kp2

/-- The hashes observed since the last purge, oldest first. -/
def observedOf (es : List KEv) : List Hash := es.foldl (fun l e => match e with
  | .observed h => l ++ [h]
  | .purge => []
  | _ => l) []

/-- The ids skipped since the last purge, oldest first; those of one block in any order. -/
inductive Skipped : List KEv → List Hash → Prop
  | nil : Skipped [] []
  | skip {es ids n h p w u d b l} : Skipped es ids → SeenLately 4096 (observedOf es) h → l.Perm (b.entries.map Prod.snd) →
      Skipped (es ++ [KEv.addBlock n h p w u d b]) (ids ++ l)
  | keep {es ids n h p w u d b} : Skipped es ids → ¬ SeenLately 4096 (observedOf es) h →
      Skipped (es ++ [KEv.addBlock n h p w u d b]) ids
  | observed {es ids h} : Skipped es ids → Skipped (es ++ [KEv.observed h]) ids
  | sendBatch {es ids i d u} : Skipped es ids → Skipped (es ++ [KEv.sendBatch i d u]) ids
  | purge {es ids} : Skipped es ids → Skipped (es ++ [KEv.purge]) []

/-- The message type has to be passed on to the message processor. -/
def Ordinary (m : RMsg) : Prop := m.key ≠ [] ∧ m.key.head? ≠ some ReorgType ∧ m.key.head? ≠ some PingType ∧ m.key.head? ≠ some ReorgCompleteType

instance (m : RMsg) : Decidable (Ordinary m) := inferInstanceAs (Decidable (_ ∧ _ ∧ _ ∧ _))

end Verif.Spec
