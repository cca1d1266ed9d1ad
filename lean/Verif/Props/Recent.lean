import Verif.Proofs.OrderingRecent
import Verif.Props.OrderingMore
/-! # C37 without end: parents-first delivery of more blocks than the window holds -/
namespace Verif
open Spec

variable {o : MapOrder}

theorem follow_all {W : World} {cfg : Config} {bs : List PB} {s0 : OMP} (h0 : cfg.lastHash ≠ Hash.zero)
    (hw : cfg.lastWeight = W.weight cfg.lastHash) (hW : ∀ b ∈ bs, W.Has b) (hh : ∀ b ∈ bs, W.Heavier b)
    (hN : ∀ b ∈ bs, W.Numbered b) (hwl : ∀ b ∈ bs, ¬ Forbidden cfg.whitelist b)
    (htr : AllTracked (2 * cfg.reorgThreshold) cfg.lastHash bs) (hn : newOMP cfg = .ok s0) :
    ∃ s, s0.run o (bs.map OOp.block) = .ok s ∧ Follow W (2 * cfg.reorgThreshold) cfg.whitelist cfg.lastHash bs s := by
  obtain ⟨i1, i2, i3, i4, _, i6, _⟩ := newOMP_inv (D := (· ∈ ([] : List PB))) hn
  have hc : 0 < cfg.reorgThreshold := by
    unfold newOMP at hn
    split at hn
    · simp at hn
    · omega
  obtain ⟨_, r2, r3, r4⟩ := newOMP_room (U := [cfg.lastHash]) hn (by simp only [List.length_singleton]; omega) (by simp)
  have hcap : (s0.finished.cap : Int) = 2 * cfg.reorgThreshold ∧ (∀ h, s0.blacklist.contains h = false) ∧ s0.log = [] := by
    unfold newOMP at hn
    split at hn
    · simp at hn
    · simp only [Except.ok.injEq] at hn
      subst hn
      refine ⟨?_, fun _ => rfl, rfl⟩
      simp only [LRU.add_cap, LRU.new]
      omega
  have hP : Follow W (2 * cfg.reorgThreshold) cfg.whitelist cfg.lastHash [] s0 :=
    ⟨fun h => (h rfl).elim, fun _ => ⟨r3, r4, r2, hcap.1, by omega, by rw [hcap.2.2]; simp⟩, by simp [i6, h0], i4, hcap.2.1, by rw [i3, i2, hw],
      .inl ⟨rfl, i2⟩⟩
  obtain ⟨s, hr, hs⟩ := (follow_run (o := o) (pre := []) ⟨by simp, by intro l1 b l2 e; simp at e, by simp⟩
    (fun b hb => ⟨⟨hW b hb, hN b hb⟩, hh b hb⟩) hP hwl (by simpa [AllTracked] using htr)).total
  exact ⟨s, hr, by simpa using hs⟩

/-- **C37**, any number of blocks: every arrival is the last processed block (first), repeats a recent block, or is new and its branch
leaves that of the heaviest block so far at a recent block. A block is recent as long as at most `2 * ReorgThreshold` different blocks
are numbered at least as high as everything delivered since. Then there is no fault, and the head is the first-received block of
maximal weight, although older blocks are forgotten on the way. (The list is any list, so this holds after every delivery.) -/
theorem C37_any_length {W : World} {cfg : Config} {bs : List PB} {s0 : OMP} (h0 : cfg.lastHash ≠ Hash.zero)
    (hw : cfg.lastWeight = W.weight cfg.lastHash) (hW : ∀ b ∈ bs, W.Has b) (hh : ∀ b ∈ bs, W.Heavier b)
    (hN : ∀ b ∈ bs, W.Numbered b) (hwl : ∀ b ∈ bs, ¬ Forbidden cfg.whitelist b)
    (htr : AllTracked (2 * cfg.reorgThreshold) cfg.lastHash bs) (hne : bs ≠ []) (hn : newOMP cfg = .ok s0) :
    ∃ s, s0.run o (bs.map OOp.block) = .ok s ∧ FirstHeaviest bs s.lastHash := by
  obtain ⟨s, hr, hs⟩ := follow_all (o := o) h0 hw hW hh hN hwl htr hn
  refine ⟨s, hr, ?_⟩
  rcases hs.head with h | h
  · exact (hne h.1).elim
  · exact h

/-- **C37**, what is asked to be dropped: as above, and every request to drop older blocks that is sent carries the number of a
delivered block which had ceased to be recent. -/
theorem C37_asked {W : World} {cfg : Config} {bs : List PB} {s0 s : OMP} (h0 : cfg.lastHash ≠ Hash.zero)
    (hw : cfg.lastWeight = W.weight cfg.lastHash) (hW : ∀ b ∈ bs, W.Has b) (hh : ∀ b ∈ bs, W.Heavier b)
    (hN : ∀ b ∈ bs, W.Numbered b) (hwl : ∀ b ∈ bs, ¬ Forbidden cfg.whitelist b)
    (htr : AllTracked (2 * cfg.reorgThreshold) cfg.lastHash bs) (hn : newOMP cfg = .ok s0)
    (hr : s0.run o (bs.map OOp.block) = .ok s) {k : Int} (hk : OOut.evictOlder k ∈ s.log) :
    Forgotten (2 * cfg.reorgThreshold) bs k := by
  obtain ⟨s', hr', hs⟩ := follow_all (o := o) h0 hw hW hh hN hwl htr hn
  rw [hr] at hr'
  simp only [Except.ok.injEq] at hr'
  subst hr'
  by_cases hb : bs = []
  · exact ((hs.fresh hb).2.2.2.2.2 k hk).elim
  · exact (hs.mem hb).asks k hk

theorem lower_bound (bs : List PB) : ∃ m : Int, ∀ b ∈ bs, m ≤ b.number := by
  induction bs with
  | nil => exact ⟨0, by simp⟩
  | cons b bs ih =>
    obtain ⟨m, h⟩ := ih
    refine ⟨min m b.number, ?_⟩
    intro x hx
    rcases List.mem_cons.mp hx with e | e
    · rw [e]; omega
    · have := h x e; omega

/-- The hypotheses of `C37_heaviest` are a special case: when all blocks fit the window, all of them are recent. -/
theorem C37_fits_tracked {cfg : Config} {bs : List PB} (hf : FitsWindow cfg bs) (hpf : ParentsFirst cfg.lastHash bs) :
    AllTracked (2 * cfg.reorgThreshold) cfg.lastHash bs := by
  obtain ⟨U, hU, _, hb⟩ := hf
  intro l1 b l2 e
  have hrec : ∀ h ∈ hashes l1, Recent (2 * cfg.reorgThreshold) l1 h := by
    intro h hh
    obtain ⟨k1, x, k2, e1, e2, e3⟩ := first_split hh
    obtain ⟨m, hm⟩ := lower_bound l1
    exact ⟨m, k1, x, k2, e1, e2, e3, fun y hy => hm y (by rw [e1]; exact List.mem_append_right _ hy), U, hU,
      fun y hy _ => hb y (by rw [e]; simp [hy])⟩
  have habove : ∀ k, k ≤ l1.length → ∀ h ∈ hashes (l1.take k), Above l1 cfg.lastHash h := by
    intro k
    induction k with
    | zero => simp [hashes]
    | succ k ih =>
      intro hk h hh
      rw [List.take_succ_eq_append_getElem (by omega), hashes_append, List.mem_append] at hh
      rcases hh with hh | hh
      · exact ih (by omega) h hh
      · simp only [hashes, List.map_cons, List.map_nil, List.mem_singleton] at hh
        have hmem : l1[k] ∈ l1 := List.getElem_mem _
        have hsp : bs = l1.take k ++ l1[k] :: (l1.drop (k + 1) ++ b :: l2) := by
          rw [e, ← List.cons_append, ← List.drop_eq_getElem_cons (by omega), ← List.append_assoc, List.take_append_drop]
        rw [hh]
        rcases hpf _ _ _ hsp with e' | ⟨a, ha, e'⟩
        · rw [e']; exact .self
        · refine .step hmem ?_
          rw [← e']
          exact ih (by omega) _ (mem_hashes ha)
  have habove : ∀ h ∈ hashes l1, Above l1 cfg.lastHash h := by
    intro h hh
    exact habove l1.length (Nat.le_refl _) h (by simpa using hh)
  by_cases h1 : l1 = []
  · subst h1
    refine .inl ⟨rfl, ?_⟩
    rcases hpf [] b l2 e with h | ⟨a, ha, _⟩
    · exact h
    · simp at ha
  · by_cases h2 : b.hash ∈ hashes l1
    · exact .inr (.inl (hrec _ h2))
    · have hroot : cfg.lastHash ∈ hashes l1 := by
        cases l1 with
        | nil => exact (h1 rfl).elim
        | cons x l1 =>
          rcases hpf [] x (l1 ++ b :: l2) (by rw [e]; rfl) with h | ⟨a, ha, _⟩
          · rw [← h]; simp [hashes]
          · simp at ha
      refine .inr (.inr ⟨h2, cfg.lastHash, hrec _ hroot, ?_, ?_⟩)
      · rcases hpf l1 b l2 e with h | ⟨a, ha, e'⟩
        · exact (h2 (h ▸ hroot)).elim
        · rw [← e']; exact habove _ (mem_hashes ha)
      · rintro h ⟨k1, x, k2, e1, e2, _⟩
        exact habove h (by rw [← e2]; exact mem_hashes (by rw [e1]; simp))

/-! ### An example: eleven blocks, a fork, a reorganization, and a window of four -/

/-- A chain of five; a lighter fork on its fourth block, which then gets heavier and longer; a repetition. -/
def exEndless : List PB :=
  [ob 1 0 10 5, ob 2 1 11 10, ob 3 2 12 15, ob 4 3 13 20, ob 5 4 14 25, ob 6 4 14 24, ob 6 4 14 24, ob 7 6 15 30, ob 8 7 16 35, ob 9 8 17 40,
    ob 10 9 18 45, ob 11 10 19 50]

/-- Block 1 was the last one processed; four blocks are remembered. -/
def exFourCfg : Config := { exOCfg with reorgThreshold := 2 }

/-- Where each new block's branch leaves the heaviest one. -/
def exForkOf (b : PB) : Hash := if b.hash = exHash 6 ∨ b.hash = exHash 7 then exHash 4 else b.parentHash

/-- Test for `RecentAt`, with the window counted by listing. -/
def recentTest (n : Int) (bs : List PB) (h : Hash) (m : Int) : Bool :=
  (splits bs).any fun x => x.2.1.hash == h && !(hashes x.1).contains h && (x.2.1 :: x.2.2).all (fun y => m ≤ y.number) &&
    ((((bs.filter (fun y => m ≤ y.number)).map PB.hash).eraseDups.length : Int) ≤ n)

theorem splits_mem {α : Type} {l l1 l2 : List α} {a : α} (h : (l1, a, l2) ∈ splits l) : l = l1 ++ a :: l2 := by
  induction l generalizing l1 with
  | nil => simp [splits] at h
  | cons b l ih =>
    simp only [splits, List.mem_cons, Prod.mk.injEq, List.mem_map, Prod.exists] at h
    rcases h with ⟨rfl, rfl, rfl⟩ | ⟨k1, y, k2, h1, h2, h3, h4⟩
    · rfl
    · subst h2; subst h3; subst h4
      rw [ih h1]; rfl

theorem recentTest_sound {n m : Int} {bs : List PB} {h : Hash} (ht : recentTest n bs h m = true) : RecentAt n bs h m := by
  unfold recentTest at ht
  rw [List.any_eq_true] at ht
  obtain ⟨⟨l1, x, l2⟩, hx, ht⟩ := ht
  simp only [Bool.and_eq_true, beq_iff_eq, Bool.not_eq_true', List.all_eq_true, decide_eq_true_eq] at ht
  obtain ⟨⟨⟨h1, h2⟩, h3⟩, h4⟩ := ht
  refine ⟨l1, x, l2, splits_mem hx, h1, ?_, h3, _, h4, ?_⟩
  · intro h'
    rw [List.contains_iff_mem.mpr h'] at h2
    simp at h2
  · intro y hy hm
    rw [List.mem_eraseDups, List.mem_map]
    exact ⟨y, List.mem_filter.mpr ⟨hy, by simpa using hm⟩, rfl⟩

/-- Test for `Above`: walk down `k` steps. -/
def aboveTest (bs : List PB) (a : Hash) : Nat → Hash → Bool
  | 0, h => h == a
  | k + 1, h => h == a || bs.any (fun b => b.hash == h && aboveTest bs a k b.parentHash)

theorem aboveTest_sound {bs : List PB} {a : Hash} {k : Nat} : ∀ {h : Hash}, aboveTest bs a k h = true → Above bs a h := by
  induction k with
  | zero => intro h ht; simp only [aboveTest, beq_iff_eq] at ht; rw [ht]; exact .self
  | succ k ih =>
    intro h ht
    simp only [aboveTest, Bool.or_eq_true, beq_iff_eq, List.any_eq_true, Bool.and_eq_true] at ht
    rcases ht with e | ⟨b, hb, e, h1⟩
    · rw [e]; exact .self
    · rw [← e]; exact .step hb (ih h1)

/-- Test for `Tracked`, given the block at which the branch leaves and lower bounds on numbers. -/
def trackedTest (n : Int) (root : Hash) (fork : PB → Hash) (bs : List PB) (b : PB) : Bool :=
  (bs.isEmpty && b.hash == root) || (List.range 30).any (fun m => recentTest n bs b.hash m) ||
    (!(hashes bs).contains b.hash && (List.range 30).any (fun m => recentTest n bs (fork b) m) && aboveTest bs (fork b) 20 b.parentHash &&
      (bs.filter (fun x => bs.all (fun y => y.weight ≤ x.weight))).all (fun x => aboveTest bs (fork b) 20 x.hash))

theorem trackedTest_sound {n : Int} {root : Hash} {fork : PB → Hash} {bs : List PB} {b : PB} (ht : trackedTest n root fork bs b = true) :
    Tracked n root bs b := by
  simp only [trackedTest, Bool.or_eq_true, Bool.and_eq_true, List.isEmpty_iff, beq_iff_eq, List.any_eq_true, Bool.not_eq_true',
    List.all_eq_true] at ht
  rcases ht with (h | ⟨m, _, h⟩) | ⟨⟨⟨h1, m, _, h2⟩, h3⟩, h4⟩
  · exact .inl h
  · exact .inr (.inl ⟨_, recentTest_sound h⟩)
  · refine .inr (.inr ⟨?_, fork b, ⟨_, recentTest_sound h2⟩, aboveTest_sound h3, ?_⟩)
    · intro h'
      rw [List.contains_iff_mem.mpr h'] at h1
      simp at h1
    · rintro h ⟨l1, x, l2, e, ex, hx, _⟩
      rw [← ex]
      exact aboveTest_sound (h4 x (List.mem_filter.mpr ⟨by rw [e]; simp, by simpa using hx⟩))

theorem allTracked_of {n : Int} {root : Hash} {fork : PB → Hash} {bs : List PB}
    (h : ∀ x ∈ splits bs, trackedTest n root fork x.1 x.2.1 = true) : AllTracked n root bs := by
  intro l1 b l2 e
  subst e
  exact trackedTest_sound (h _ mem_splits)

/-- C37: eleven different blocks with a window of four. The head is block 11, after a reorganization from block 5 to block 7; the
blocks forgotten are reported. -/
example : (∀ b ∈ exEndless, (worldOf exEndless 9).Has b) ∧ (∀ b ∈ exEndless, (worldOf exEndless 9).Heavier b) ∧
    (∀ b ∈ exEndless, (worldOf exEndless 9).Numbered b) ∧ (∀ b ∈ exEndless, ¬ Forbidden exFourCfg.whitelist b) ∧
    AllTracked (2 * exFourCfg.reorgThreshold) exFourCfg.lastHash exEndless ∧ newOMP exFourCfg = .ok (omp0 exFourCfg) ∧
    ∃ s, (omp0 exFourCfg).run .plain (exEndless.map OOp.block) = .ok s ∧ (s.lastHash == exHash 11 &&
      (s.log.filterMap fun x => match x with | .evictOlder n => some n | _ => none) == [10, 11, 12, 13, 14, 14, 15]) = true :=
  ⟨by decide +kernel, by decide +kernel, by decide +kernel, by decide +kernel, allTracked_of (fork := exForkOf) (by decide +kernel),
    omp0_new _ (by decide), ex_ok _ (by decide +kernel)⟩

/-- A heavy block on top of the second of four blocks arrives last. -/
def exLate : List PB := [ob 1 0 10 5, ob 2 1 11 10, ob 3 2 12 15, ob 4 3 13 20, ob 5 2 12 90]

/-- Recency is needed: with a window of two blocks, the heavy block's parent is forgotten when it arrives, and it is not adopted. -/
theorem C37_recent_needed : ¬ ∀ (o : MapOrder) (W : World) (cfg : Config) (bs : List PB) (s0 s : OMP), cfg.lastHash ≠ Hash.zero →
    cfg.lastWeight = W.weight cfg.lastHash → (∀ b ∈ bs, W.Has b) → (∀ b ∈ bs, W.Heavier b) → (∀ b ∈ bs, W.Numbered b) →
    (∀ b ∈ bs, ¬ Forbidden cfg.whitelist b) → ParentsFirst cfg.lastHash bs → bs ≠ [] → newOMP cfg = .ok s0 →
    s0.run o (bs.map OOp.block) = .ok s → FirstHeaviest bs s.lastHash := by
  intro h
  obtain ⟨s, hs, hl⟩ : ∃ s, (omp0 { exOCfg with reorgThreshold := 1 }).run .plain (exLate.map OOp.block) = .ok s ∧
    (s.lastHash == exHash 4) = true := ex_ok _ (by decide +kernel)
  obtain ⟨l1, b, l2, e, hb, hmax, _⟩ := h .plain (worldOf exLate 9) { exOCfg with reorgThreshold := 1 } exLate _ s (by decide +kernel)
    (by decide +kernel) (by decide +kernel) (by decide +kernel) (by decide +kernel) (by decide +kernel)
    (parentsFirst_of (by decide +kernel)) (by decide) (omp0_new _ (by decide)) hs
  rw [beq_iff_eq.mp hl] at hb
  have : ∀ x ∈ exLate, x.hash = exHash 4 → x.weight = 20 := by decide +kernel
  have h1 := this b (by rw [e]; simp) hb
  have h2 := hmax (ob 5 2 12 90) (by simp [exLate])
  simp only [ob] at h2
  omega

end Verif
