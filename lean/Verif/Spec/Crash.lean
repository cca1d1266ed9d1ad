import Verif.Model.Consumer
import Verif.Spec.Path
/-!
# Which messages end the process of a consumer
-/
namespace Verif.Spec

/-- `path.Dir` that many times. -/
def up : GoStr → Nat → GoStr
  | p, 0 => p
  | p, n + 1 => up (Path.dir p) n

/-- The directory that is looked up there, without a leading slash. -/
def dirAt (p : GoStr) (n : Nat) : GoStr := Path.dirKey (up p n)

/-- A search ends at that directory: messages below it are still to come, or none is and the consumer is configured to panic then. -/
def EndsAt (frp : Bool) (counts : GMap GoStr Int) (k : GoStr) : Prop :=
  (∃ v, counts.get? k = some v ∧ 0 < v) ∨ (frp = true ∧ counts.get? k = some 0)

/-- No message is to come for the path itself. -/
def Unexpected (counts : GMap GoStr Int) (p : GoStr) : Prop := ∀ v, counts.get? p = some v → v ≤ 0

/-- The search for a path comes to a directory below which no message is to come any more. -/
def RunsOut (frp : Bool) (counts : GMap GoStr Int) (p : GoStr) : Prop :=
  frp = true ∧ Unexpected counts p ∧ ∃ n, (∀ i ≤ n, up p i ≠ str ".") ∧ counts.get? (dirAt p n) = some 0 ∧ ∀ i < n, ¬ EndsAt frp counts (dirAt p i)

/-- The search for a path does not end. -/
def NeverEnds (frp : Bool) (counts : GMap GoStr Int) (p : GoStr) : Prop :=
  ¬ Relative p ∧ Unexpected counts p ∧ ∀ n, ¬ EndsAt frp counts (dirAt p n)

/-- The type of a message. -/
def HasType (m : RMsg) (t : UInt8) : Prop := m.key.head? = some t

/-- The sub-batch that a sub-batch message is part of. -/
def subOf (m : RMsg) : Hash := bytesToHash ((m.key.drop 33).take 32)

/-- How a message for a block that is being assembled ends the process. -/
inductive Kills (C : Codec) (pb : PB) (m : RMsg) : Fault → Prop
  /-- The key of a sub-batch message is too short. -/
  | short : HasType m 2 → m.key.length < 65 → Kills C pb m .panic
  /-- The index of a sub-batch message is none of its sub-batch. -/
  | index {i : Int} {bits : List Bool} : HasType m 2 → 65 ≤ m.key.length → C.decInt (m.key.drop 65) = some i → pb.batches.get? (subOf m) = some bits →
      (i < 0 ∨ (bits.length : Int) ≤ i) → Kills C pb m .panic
  /-- An update that is not there yet comes where no message is to come any more. -/
  | update : HasType m 3 → (∀ v, pb.values.get? (m.key.drop 33) = some v → v = []) → RunsOut pb.frp pb.prefixes (m.key.drop 33) → Kills C pb m .panic
  /-- The same for a deletion. -/
  | delete : HasType m 4 → pb.deletes.get? (m.key.drop 33) = none → RunsOut pb.frp pb.prefixes (m.key.drop 33) → Kills C pb m .panic
  /-- An update that is not there yet, with a path that starts with a slash, comes where none is to come. -/
  | updateHangs : HasType m 3 → (∀ v, pb.values.get? (m.key.drop 33) = some v → v = []) → NeverEnds pb.frp pb.prefixes (m.key.drop 33) → Kills C pb m .hang
  /-- The same for a deletion. -/
  | deleteHangs : HasType m 4 → pb.deletes.get? (m.key.drop 33) = none → NeverEnds pb.frp pb.prefixes (m.key.drop 33) → Kills C pb m .hang

/-- The block `h` is being assembled, and is not dropped by the requests that are waiting. -/
def Assembling (env : Env) (mp : MP) (h : Hash) (pb : PB) : Prop :=
  mp.completed.contains h = false ∧ mp.oldBlocks.contains h = false ∧ mp.pendingBatches.get? h = some pb ∧ ∀ n ∈ env.evict mp.tick, n ≤ pb.number

/-- How a message other than the header of a block ends the process. -/
inductive Crashes (C : Codec) (env : Env) (mp : MP) (m : RMsg) : Fault → Prop
  /-- The key is too short. -/
  | short : m.key.length < 33 → Crashes C env mp m .panic
  /-- A part of a block ends it. -/
  | part {pb : PB} {f : Fault} : 33 ≤ m.key.length → Assembling env mp (hashOf m.key) pb → Kills C pb m f → Crashes C env mp m f
  /-- The header of a sub-batch that is expected announces a negative number of messages. -/
  | count {pb : PB} {c : Int} : 33 ≤ m.key.length → HasType m 1 → Assembling env mp (hashOf m.key) pb →
      pb.pendingBatches.get? (bytesToHash (m.key.drop 33)) = some () → C.decInt m.value = some c → c < 0 → Crashes C env mp m .panic
  /-- It announces too few: a message with a higher (or a negative) index has come before. -/
  | few {pb : PB} {c i : Int} {k : Bytes} {w : RMsg} : 33 ≤ m.key.length → HasType m 1 → Assembling env mp (hashOf m.key) pb →
      pb.pendingBatches.get? (bytesToHash (m.key.drop 33)) = some () → C.decInt m.value = some c →
      pb.pendingMessages.get? k = some w → HasType w 2 → subOf w = bytesToHash (m.key.drop 33) → C.decInt (w.key.drop 65) = some i →
      (i < 0 ∨ c ≤ i) → Crashes C env mp m .panic

/-- Messages are processed one after the other without an error. -/
inductive Goes (C : Codec) (env : Env) : MP → List RMsg → MP → Prop
  | nil {mp : MP} : Goes C env mp [] mp
  | cons {mp mp1 mp2 : MP} {m : RMsg} {ms : List RMsg} : mp.processMessage C env m = .ok (mp1, none) → Goes C env mp1 ms mp2 → Goes C env mp (m :: ms) mp2

end Verif.Spec
