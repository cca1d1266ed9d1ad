import Verif.Proofs.OrderingStays
import Verif.Proofs.OrderingBound
import Verif.Props.OrderingMore
/-!
# C83 and C40: handled blocks are held and remembered

A block is held (`pending`) so that later forks can be joined to it, and remembered (`finished`) so that repetitions of it are
ignored. `TooOld cfg s b` is the only reason not to hold it.
-/
namespace Verif
open Spec

variable {o : MapOrder}

/-- The block connects to nothing known, is lighter than the head, and the head is known and more than the reorg threshold
above it. -/
def Spec.TooOld (cfg : Config) (s : OMP) (b : PB) : Prop :=
  s.finished.contains b.parentHash = false ∧ b.weight < s.lastWeight ∧
    ∃ latest, s.pending.get? s.lastHash = some latest ∧ latest.number > b.number + cfg.reorgThreshold

/-- The state after some history, and a block of the same world about to be handled. -/
structure Spec.Offered (o : MapOrder) (W : World) (cfg : Config) (ops : List OOp) (s : OMP) (pb : PB) : Prop where
  start : ∃ s0, newOMP cfg = .ok s0 ∧ s0.run o ops = .ok s
  world : FromWorld W (blocksOf ops ++ [pb])
  allowed : ¬ Forbidden cfg.whitelist pb
  parent : s.blacklist.contains pb.parentHash = false

theorem run_oinv {D : PB → Prop} {ops : List OOp} {s0 s : OMP} (hD : ∀ b ∈ blocksOf ops, D b) (h0 : OInv D s0)
    (hr : s0.run o ops = .ok s) : OInv D s ∧ s.whitelist = s0.whitelist ∧ s.initEmpty = s0.initEmpty := by
  refine orun_ind (o := o) (P := fun _ s => OInv D s ∧ s.whitelist = s0.whitelist ∧ s.initEmpty = s0.initEmpty) ⟨h0, rfl, rfl⟩ ?_ hr
  rintro pre op post s1 s2 e ⟨h1, h2, h3⟩ hop
  cases op with
  | reorg n h => cases hop; exact ⟨h1.of_maps rfl rfl, h2, h3⟩
  | block b =>
    have := op_block_out (N := False) (D := D) (fun h => h.elim) h1 (fun _ => hD b (by rw [e]; simp [blocksOf])) hop
    exact ⟨this.inv, this.whitelist.trans h2, this.initEmpty.trans h3⟩

theorem Spec.Offered.parts {W : World} {cfg : Config} {ops : List OOp} {s : OMP} {pb : PB} (h : Offered o W cfg ops s pb) :
    OInv (· ∈ blocksOf ops ++ [pb]) s ∧ s.initEmpty = decide (cfg.lastHash = Hash.zero) ∧ 0 < s.finished.cap ∧
      s.excludes pb = false ∧ s.reorgThreshold = cfg.reorgThreshold ∧ 0 < cfg.reorgThreshold := by
  obtain ⟨s0, hn, hr⟩ := h.start
  obtain ⟨i1, _, _, i4, _, i6, _, i8⟩ := newOMP_inv (D := (· ∈ blocksOf ops ++ [pb])) hn
  obtain ⟨h1, h2, h3⟩ := run_oinv (o := o) (fun b hb => List.mem_append_left _ hb) i1 hr
  have hb := (run_bound (o := o) s0 ops (newOMP_bound hn)).ok hr
  refine ⟨h1, h3.trans i6, by rw [hb.1]; omega, ?_, hb.2.2, by omega⟩
  cases hx : s.excludes pb with
  | false => rfl
  | true =>
    rcases (excludes_iff s pb).mp hx with k | k
    · rw [h2, i4] at k; exact (h.allowed k).elim
    · rw [h.parent] at k; cases k

theorem not_tooOld {W : World} {cfg : Config} {ops : List OOp} {s : OMP} {pb : PB} (h : Offered o W cfg ops s pb) (hk : ¬ TooOld cfg s pb) :
    s.finished.contains pb.parentHash = true ∨ ¬ pb.weight < s.lastWeight ∨
      OMP.tooOld { s with pending := s.pending.insert pb.hash pb } pb = false := by
  obtain ⟨_, _, _, _, h5, h6⟩ := h.parts
  by_cases hw : pb.weight < s.lastWeight
  · cases hf : s.finished.contains pb.parentHash with
    | true => exact .inl rfl
    | false =>
      refine .inr (.inr ?_)
      cases ht : OMP.tooOld { s with pending := s.pending.insert pb.hash pb } pb with
      | false => rfl
      | true =>
        refine (hk ⟨hf, hw, ?_⟩).elim
        unfold OMP.tooOld at ht
        simp only [GMap.get?_insert] at ht
        split at ht
        · rename_i latest hl
          have ht : latest.number - pb.number > s.reorgThreshold := by simpa using ht
          rw [h5] at ht
          split at hl
          · cases hl; omega
          · exact ⟨latest, hl, by omega⟩
        · simp at ht
  · exact .inr (.inl hw)

/-! ## C83 -/

/-- **C83**: a block that is handled is held afterwards, unless its eviction was requested meanwhile or it was too old. -/
theorem C83_held {W : World} {cfg : Config} {ops : List OOp} {s s' : OMP} {pb : PB} (h : Offered o W cfg ops s pb)
    (hs : s.handle o pb = .ok s') :
    s'.pending.get? pb.hash = some pb ∨ (∃ l, s'.log = s.log ++ l ∧ .evictOlder pb.number ∈ l) ∨ TooOld cfg s pb := by
  by_cases hk : TooOld cfg s pb
  · exact .inr (.inr hk)
  · obtain ⟨h1, _, h3, h4, _⟩ := h.parts
    have := (handle_stays (o := o) h.world.hashed s pb h1 (by simp) h3 h4 (not_tooOld h hk)).ok hs
    exact this.held.imp id .inl

/-- **C83**: a block that is too old and was not handled before is forgotten: nothing is sent, and neither the head, the waiting blocks,
the remembered hashes nor any other held block change. -/
theorem C83_dropped {W : World} {cfg : Config} {ops : List OOp} {s : OMP} {pb : PB} (h : Offered o W cfg ops s pb)
    (h0 : cfg.lastHash ≠ Hash.zero) (hp : pb.parentHash ≠ s.lastHash) (hl : pb.hash ≠ s.lastHash)
    (hf : s.finished.contains pb.hash = false) (hk : TooOld cfg s pb) :
    ∃ s', s.handle o pb = .ok s' ∧ s'.log = s.log ∧ s'.lastHash = s.lastHash ∧ s'.lastWeight = s.lastWeight ∧
      s'.queued = s.queued ∧ s'.finished = s.finished ∧ s'.pending.get? pb.hash = none ∧
      ∀ x, x ≠ pb.hash → s'.pending.get? x = s.pending.get? x := by
  obtain ⟨_, h2, _, h4, h5, _⟩ := h.parts
  obtain ⟨k1, k2, latest, k3, k4⟩ := hk
  have ht : OMP.tooOld { s with pending := s.pending.insert pb.hash pb } pb = true := by
    unfold OMP.tooOld
    simp only [GMap.get?_insert, if_neg hl, k3]
    rw [h5]
    simp only [decide_eq_true_eq]; omega
  refine ⟨{ s with pending := (s.pending.insert pb.hash pb).erase pb.hash }, ?_, rfl, rfl, rfl, rfl, rfl, by simp, ?_⟩
  · unfold OMP.handle OMP.handleAux
    rw [h4]
    simp only [Bool.false_eq_true, if_false]
    unfold OMP.accept OMP.onUnconnected
    have hi : s.initEmpty = false := by rw [h2]; simp [h0]
    rw [if_neg (by simp only [hf]; simp), if_neg hp, if_neg (by simp only [hi]; simp), if_neg (by simp only [k1]; simp), if_pos k2,
      if_pos ht]
  · intro x hx
    show ((s.pending.insert pb.hash pb).erase pb.hash).get? x = _
    rw [GMap.get?_erase_ne _ (Ne.symm hx), GMap.get?_insert, if_neg (Ne.symm hx)]

/-! ## C40: what is remembered -/

/-- **C40**: a block that was handled and either came next after the head or is lighter than it is remembered, so that (`C40_repeat`)
repetitions of it are ignored, unless its eviction was requested meanwhile or it was too old. -/
theorem C40_remembered {W : World} {cfg : Config} {ops : List OOp} {s s' : OMP} {pb : PB} (h : Offered o W cfg ops s pb)
    (hl : pb.parentHash = s.lastHash ∨ pb.weight < s.lastWeight) (hs : s.handle o pb = .ok s') :
    s'.finished.contains pb.hash = true ∨ (∃ l, s'.log = s.log ++ l ∧ .evictOlder pb.number ∈ l) ∨ TooOld cfg s pb := by
  by_cases hk : TooOld cfg s pb
  · exact .inr (.inr hk)
  · obtain ⟨h1, _, h3, h4, _⟩ := h.parts
    have := (handle_stays (o := o) h.world.hashed s pb h1 (by simp) h3 h4 (not_tooOld h hk)).ok hs
    exact (this.fin hl).imp (fun h => (LRU.contains_iff _ _).mpr h) .inl

/-- Blocks 2 to 5 in a row on block 1. -/
def exRow : List PB := [ob 2 1 11 20, ob 3 2 12 30, ob 4 3 13 40, ob 5 4 14 50]

/-- A reorg threshold of three. -/
def exThreeCfg : Config := { exOCfg with reorgThreshold := 3 }

/-- C83: an orphan of height 9 is too old when the head has height 14, one of height 12 is not. -/
example : ∃ s, (omp0 exThreeCfg).run .plain (exRow.map OOp.block) = .ok s ∧
    ((s.pending.get? s.lastHash).map PB.number == some 14 && decide (s.lastWeight = 50) && !s.finished.contains (exHash 8) &&
      (match s.handle .plain (ob 9 8 9 1) with
        | .ok t => !t.pending.contains (exHash 9) && !t.finished.contains (exHash 9)
        | .error _ => false) &&
      (match s.handle .plain (ob 9 8 12 1) with
        | .ok t => t.pending.contains (exHash 9) && t.finished.contains (exHash 9)
        | .error _ => false)) = true := ex_ok _ (by decide +kernel)

end Verif
