import Verif.Proofs.Lift
import Verif.Props.Producer
import Verif.Spec.Consumer
/-! Example data for the consumer's properties. -/
namespace Verif
open Spec

theorem ex_ok {α : Type} {r : Except Fault α} (p : α → Bool)
    (h : (match r with | .ok a => p a | .error _ => false) = true) : ∃ a, r = .ok a ∧ p a = true := by
  match r, h with
  | .ok a, h => exact ⟨a, rfl, h⟩

/-- Evaluation of a run that faults. -/
theorem ex_err {α : Type} {r : Except Fault α} {f : Fault}
    (h : (match r with | .ok _ => false | .error g => g == f) = true) : r = .error f := by
  match r, h with
  | .error g, h => simp at h; rw [h]

/-- A configuration that tracks everything. -/
def exCfg : Config where
  lastEmittedNum := 0
  lastHash := Hash.zero
  lastWeight := 0
  reorgThreshold := 2
  tracked := fun _ => true
  whitelist := GMap.empty
  frp := false

/-- Representation order, no eviction requests. -/
def exEnv : Env := ⟨.plain, fun _ => []⟩

/-- The processor `NewMessageProcessor` makes from `exCfg`. -/
def exMP : MP where
  lastEmittedNum := 0
  reorgThreshold := 2
  pendingBatches := GMap.empty
  pendingMessages := GMap.empty
  tracked := fun _ => true
  oldBlocks := GMap.empty
  completed := LRU.new 4
  resumption := GMap.empty
  frp := false
  nextCh := 0
  tick := 0
  log := []

theorem exMP_new : newMP exCfg = .ok exMP := rfl

/-- A message read from a source at an offset. -/
def at_ (m : Msg) (offset : Int) (source : GoStr) : RMsg := ⟨m.key, m.value, offset, source⟩

/-- The messages of `exBlock`, without its sub-batch. -/
def exMsgs : List Msg := match addBlock' Avro.codec .plain exProducer exBlock with
  | (_, .ok tm) => flat tm
  | _ => []

/-- Its sub-batch: a delete and an update. -/
def exSub : List Msg := [
  ⟨keyOf Avro.codec (.subHeader (exHash 1) (exHash 9)), Avro.codec.encInt 2⟩,
  ⟨keyOf Avro.codec (.subMsg (exHash 1) (exHash 9) 0), Avro.codec.encSub ⟨[str "state/sub/z"], GMap.empty⟩⟩,
  ⟨keyOf Avro.codec (.subMsg (exHash 1) (exHash 9) 1),
    Avro.codec.encSub ⟨[], GMap.empty.insert (str "state/sub/y") [8]⟩⟩]

/-- All messages of the block, read from one source with increasing offsets. -/
def exStream : List RMsg := (exMsgs ++ exSub).zipIdx.map (fun e => at_ e.1 e.2 (str "s:0"))

/-- A second copy of the sub-batch header, from another source. -/
def exDup : RMsg := at_ ⟨keyOf Avro.codec (.subHeader (exHash 1) (exHash 9)), Avro.codec.encInt 2⟩ 3 (str "other")

end Verif
