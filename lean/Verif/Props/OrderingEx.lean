import Verif.Proofs.OrderingBest
import Verif.Props.ConsumerEx
/-! Example data for the ordering layer's properties. -/
namespace Verif
open Spec

/-- A block without payload. -/
def ob (hash parent : Nat) (number : Int) (weight : Nat) : PB where
  number := number
  weight := weight
  parentHash := exHash parent
  hash := exHash hash
  values := GMap.empty
  deletes := GMap.empty
  resumption := GMap.empty
  resumptionDefaults := GMap.empty
  prefixes := GMap.empty
  batches := GMap.empty
  pendingBatches := GMap.empty
  pendingMessages := GMap.empty
  waitCh := none
  frp := false

/-- The world of some blocks; all other blocks have number `rest`. -/
def worldOf (bs : List PB) (rest : Int) : World where
  parent h := ((bs.find? (fun b => b.hash == h)).map PB.parentHash).getD Hash.zero
  number h := ((bs.find? (fun b => b.hash == h)).map PB.number).getD rest
  weight h := ((bs.find? (fun b => b.hash == h)).map PB.weight).getD 0

instance (W : World) (b : PB) : Decidable (W.Has b) :=
  decidable_of_iff (b.parentHash = W.parent b.hash ∧ b.number = W.number b.hash ∧ b.weight = W.weight b.hash)
    ⟨fun h => ⟨h.1, h.2.1, h.2.2⟩, fun h => ⟨h.1, h.2, h.3⟩⟩

instance (W : World) (bs : List PB) : Decidable (FromWorld W bs) := by unfold FromWorld; infer_instance

instance (W : World) (b : PB) : Decidable (W.Numbered b) := by unfold World.Numbered; infer_instance

instance (W : World) (b : PB) : Decidable (W.Heavier b) := by unfold World.Heavier; infer_instance

/-- The hashes of the updates sent. -/
def sent (s : OMP) : List (List Hash × List Hash) := s.updates.map (fun u => (hashes u.1, hashes u.2))

/-- Block 1 was the last one processed. -/
def exOCfg : Config := { exCfg with lastHash := exHash 1, lastWeight := 5, reorgThreshold := 10 }

/-- Two forks on block 1: 2-3 and 4-5, the second heavier. Children before parents. -/
def exTree : List PB := [ob 1 0 10 5, ob 3 2 12 20, ob 2 1 11 10, ob 2 1 11 10, ob 5 4 12 25, ob 4 1 11 11]

def exW : World := worldOf exTree 9

theorem exW_from : FromWorld exW exTree := by decide +kernel
theorem exW_numbered : ∀ b ∈ exTree, exW.Numbered b := by decide +kernel
theorem exW_heavier : ∀ b ∈ exTree, exW.Heavier b := by decide +kernel

/-- The state `NewOrderedMessageProcessor` makes from a configuration. -/
def omp0 (cfg : Config) : OMP where
  lastHash := cfg.lastHash
  lastWeight := cfg.lastWeight
  reorgThreshold := cfg.reorgThreshold
  pending := GMap.empty
  queued := GMap.empty
  finished := ((LRU.new (2 * cfg.reorgThreshold).toNat).add cfg.lastHash).1
  whitelist := cfg.whitelist
  blacklist := GMap.empty
  initEmpty := cfg.lastHash = Hash.zero
  tick := 0
  log := []

theorem omp0_new (cfg : Config) (h : 0 < cfg.reorgThreshold) : newOMP cfg = .ok (omp0 cfg) := by
  unfold omp0 newOMP
  rw [if_neg (by omega)]

theorem exTree_run : ∃ s, (omp0 exOCfg).run .plain (exTree.map OOp.block) = .ok s ∧
    (sent s == [([exHash 2, exHash 3], []), ([exHash 4, exHash 5], [exHash 2, exHash 3])]) = true :=
  ex_ok _ (by decide +kernel)
end Verif
