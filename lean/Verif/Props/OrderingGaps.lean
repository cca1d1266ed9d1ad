import Verif.Props.OrderingMore
import Verif.Proofs.OrderingGaps
/-! The property C39 (forks in any order), for all orders in which the gaps close well. Statements only; the proofs use
`Verif/Proofs/`. -/
namespace Verif
open Spec

variable {o : MapOrder}

/-- What holds after blocks delivered in such an order. -/
theorem gaps_between {W : World} {U : List Hash} {cfg : Config} {bs : List PB} {s0 : OMP} (h0 : cfg.lastHash ≠ Hash.zero)
    (hw : cfg.lastWeight = W.weight cfg.lastHash) (hW : FromWorld W bs) (hh : ∀ b ∈ bs, W.Heavier b)
    (hN : ∀ b ∈ bs, W.Numbered b) (hO : ∀ b ∈ bs, OverRoot W cfg.lastHash b)
    (hf : (U.length : Int) ≤ 2 * cfg.reorgThreshold ∧ cfg.lastHash ∈ U ∧ ∀ b ∈ bs, b.hash ∈ U)
    (hwl : ∀ b ∈ bs, ¬ Forbidden cfg.whitelist b) (hc : ClosesGaps cfg.lastHash cfg.reorgThreshold bs) (hn : newOMP cfg = .ok s0) :
    ∃ s, s0.run o (bs.map OOp.block) = .ok s ∧ Between W U cfg.whitelist cfg.reorgThreshold cfg.lastHash bs s := by
  obtain ⟨hU, hl, hb⟩ := hf
  have hR : Regular W U (· ∈ bs) := ⟨hW.hashed, fun b h => (hW b h).1, hN, hh, hb⟩
  obtain ⟨i1, i2, i3, i4, i5, i6, _⟩ := newOMP_inv (D := (· ∈ ([] : List PB))) hn
  obtain ⟨r1, r2, _, _⟩ := newOMP_room hn hU hl
  have hP : Between W U cfg.whitelist cfg.reorgThreshold cfg.lastHash [] s0 := by
    refine ⟨⟨i1, r1, by simp [i6, h0], i4, ?_, ?_, by simp, by simp [r2], by simp [r2], by rw [i3, i2, hw], by rw [i2]; exact .root,
      by simp [i5]⟩, by simp, by simp, by simp⟩
    · intro h
      unfold newOMP at hn
      split at hn
      · simp at hn
      · simp only [Except.ok.injEq] at hn
        subst hn
        rfl
    · unfold newOMP at hn
      split at hn
      · simp at hn
      · simp only [Except.ok.injEq] at hn
        subst hn
        rfl
  obtain ⟨s, hr, hs⟩ := (gap_run (o := o) (pre := []) (by simpa using hR) (by simpa using hO) (by simpa using hwl) hP
    (by simpa [ClosesGaps] using hc)).total
  simp only [List.nil_append] at hs
  exact ⟨s, hr, hs⟩

/-- **C39**, orders that need not be parents first: blocks delivered in an order in which every arrival `Closes` its gap are all
handled, and after each of them (the list is any list) the head hangs together with the last processed block, and no delivered
block hanging together with it is heavier. Missing: a block that is not the heaviest and closes a gap below a fork (refuted by
`C39_refuted`). -/
theorem C39_gaps_partial {W : World} {cfg : Config} {bs : List PB} {s0 : OMP} (h0 : cfg.lastHash ≠ Hash.zero)
    (hw : cfg.lastWeight = W.weight cfg.lastHash) (hW : FromWorld W bs) (hh : ∀ b ∈ bs, W.Heavier b)
    (hN : ∀ b ∈ bs, W.Numbered b) (hO : ∀ b ∈ bs, OverRoot W cfg.lastHash b) (hf : FitsWindow cfg bs)
    (hwl : ∀ b ∈ bs, ¬ Forbidden cfg.whitelist b) (hc : ClosesGaps cfg.lastHash cfg.reorgThreshold bs) (hn : newOMP cfg = .ok s0) :
    ∃ s, s0.run o (bs.map OOp.block) = .ok s ∧ Joined cfg.lastHash bs s.lastHash ∧
      ∀ b ∈ bs, Joined cfg.lastHash bs b.hash → b.weight ≤ W.weight s.lastHash := by
  obtain ⟨U, hU, hl, hb⟩ := hf
  obtain ⟨s, hr, hs⟩ := gaps_between (o := o) h0 hw hW hh hN hO ⟨hU, hl, hb⟩ hwl hc hn
  exact ⟨s, hr, hs.mid.head, fun b hb' hj => by rw [← hs.mid.weight]; exact hs.best b hb' hj⟩

/-- **C39**, complete delivery: when the delivered blocks form a tree, the head is a heaviest of all. Missing: as above. -/
theorem C39_tree_partial {W : World} {cfg : Config} {bs : List PB} {s0 : OMP} (h0 : cfg.lastHash ≠ Hash.zero)
    (hw : cfg.lastWeight = W.weight cfg.lastHash) (hW : FromWorld W bs) (hh : ∀ b ∈ bs, W.Heavier b)
    (hN : ∀ b ∈ bs, W.Numbered b) (hf : FitsWindow cfg bs) (hwl : ∀ b ∈ bs, ¬ Forbidden cfg.whitelist b)
    (hT : TreeOf cfg.lastHash bs) (hc : ClosesGaps cfg.lastHash cfg.reorgThreshold bs) (hn : newOMP cfg = .ok s0) :
    ∃ s, s0.run o (bs.map OOp.block) = .ok s ∧ Heaviest bs s.lastHash := by
  obtain ⟨s, hr, h1, h2⟩ := C39_gaps_partial (o := o) h0 hw hW hh hN (tree_over hN hT) hf hwl hc hn
  obtain ⟨b, hb, e⟩ := joined_mem hT.1 h1
  refine ⟨s, hr, b, hb, e, ?_⟩
  intro x hx
  rw [(hW b hb).1.weight, e]
  exact h2 x hx (tree_joined hN hT x hx).1

/-- **C39**: parents-first orders are such orders. -/
theorem C39_covers_parentsFirst {W : World} {root : Hash} {bs : List PB} (t : Int) (hN : ∀ b ∈ bs, W.Numbered b)
    (hpf : ParentsFirst root bs) : ClosesGaps root t bs := by
  intro l1 b l2 e
  by_cases hr : b.hash = root
  · exact .inl hr
  · have hpf1 : ParentsFirst root l1 := fun m1 x m2 e' => hpf m1 x (m2 ++ b :: l2) (by rw [e, e']; simp)
    have hN1 : ∀ x ∈ l1, W.Numbered x := fun x hx => hN x (by rw [e]; simp [hx])
    obtain ⟨a, ha, ea⟩ := (hpf l1 b l2 e).resolve_left hr
    have hT : TreeOf root l1 := by
      refine ⟨?_, ?_⟩
      · cases l1 with
        | nil => simp at ha
        | cons x m =>
          rcases hpf1 [] x m rfl with h | ⟨y, hy, _⟩
          · simp [hashes, h]
          · simp at hy
      · intro x hx
        obtain ⟨m1, m2, rfl⟩ := List.append_of_mem hx
        rcases hpf1 m1 x m2 rfl with h | ⟨y, hy, ey⟩
        · exact .inl h
        · exact .inr (by rw [← ey]; exact mem_hashes (by simp [hy]))
    have hj := tree_joined hN1 hT
    refine .inr ⟨hT.1, .inl ⟨ea ▸ (hj a ha).1, ?_⟩⟩
    by_cases hb : b.hash ∈ hashes l1
    · exact .inl hb
    · refine .inr (.inr ?_)
      have hnum : W.number root < W.number b.hash := by
        have := hN b (by rw [e]; simp)
        unfold World.Numbered at this
        rw [← ea] at this
        rcases (hj a ha).2 with h | h
        · rw [h] at this; omega
        · omega
      have hge : ∀ h, Joined b.hash l1 h → W.number b.hash ≤ W.number h := by
        intro h hh
        induction hh with
        | root => exact Int.le_refl _
        | @step x hx _ ih =>
          have := hN1 x hx
          unfold World.Numbered at this
          omega
      have hnone : ∀ h, Joined b.hash l1 h → h ∉ hashes l1 := by
        intro h hh
        induction hh with
        | root => exact hb
        | @step x hx hjx ih =>
          rcases hT.2 x hx with h | h
          · have h1 := hge _ hjx
            have h2 := hN1 x hx
            unfold World.Numbered at h2
            rw [h] at h2
            omega
          · exact (ih h).elim
      intro x hx y _ hjx _
      exact (hnone _ (.step hx hjx) (mem_hashes hx)).elim

/-- The hashes hanging together with `root`, by going through the blocks as often as there are blocks. -/
def joinedList (root : Hash) (bs : List PB) : List Hash :=
  bs.foldl (fun acc _ => bs.foldl (fun acc b => if b.parentHash ∈ acc then b.hash :: acc else acc) acc) [root]

theorem joinedList_sound {root : Hash} {bs : List PB} : ∀ h ∈ joinedList root bs, Joined root bs h := by
  have inner : ∀ l : List PB, (∀ b ∈ l, b ∈ bs) → ∀ acc : List Hash, (∀ h ∈ acc, Joined root bs h) →
      ∀ h ∈ l.foldl (fun acc b => if b.parentHash ∈ acc then b.hash :: acc else acc) acc, Joined root bs h := by
    intro l
    induction l with
    | nil => intro _ acc ha; exact ha
    | cons b l ih =>
      intro hl acc ha
      rw [List.foldl_cons]
      refine ih (fun x hx => hl x (by simp [hx])) _ ?_
      split
      · rename_i hp
        intro h hh
        rcases List.mem_cons.mp hh with e | hh
        · rw [e]; exact .step (hl b (by simp)) (ha _ hp)
        · exact ha h hh
      · exact ha
  have outer : ∀ l : List PB, ∀ acc : List Hash, (∀ h ∈ acc, Joined root bs h) →
      ∀ h ∈ l.foldl (fun acc _ => bs.foldl (fun acc b => if b.parentHash ∈ acc then b.hash :: acc else acc) acc) acc, Joined root bs h := by
    intro l
    induction l with
    | nil => intro acc ha; exact ha
    | cons b l ih =>
      intro acc ha
      rw [List.foldl_cons]
      exact ih _ (inner bs (fun _ h => h) acc ha)
  exact outer bs [root] (by intro h hh; rw [List.mem_singleton.mp hh]; exact .root)

theorem joinedList_iff {root : Hash} {bs : List PB} (hr : root ∈ joinedList root bs)
    (hc : ∀ b ∈ bs, b.parentHash ∈ joinedList root bs → b.hash ∈ joinedList root bs) {h : Hash} :
    Joined root bs h ↔ h ∈ joinedList root bs := by
  refine ⟨?_, joinedList_sound h⟩
  intro hj
  induction hj with
  | root => exact hr
  | step hb _ ih => exact hc _ hb ih

/-- A check of `Closes`. -/
def closesCheck (root : Hash) (t : Int) (l : List PB) (b : PB) : Bool :=
  let J := joinedList root l
  let K := joinedList b.hash l
  decide (b.hash = root) || (decide (root ∈ J) && decide (∀ x ∈ l, x.parentHash ∈ J → x.hash ∈ J) &&
    decide (b.hash ∈ K) && decide (∀ x ∈ l, x.parentHash ∈ K → x.hash ∈ K) && decide (root ∈ hashes l) &&
    (if b.parentHash ∈ J then
      decide (b.hash ∈ hashes l) || decide (∀ a ∈ l, a.hash ∈ J → a.weight < b.weight) ||
        decide (∀ a ∈ l, ∀ c ∈ l, a.parentHash ∈ K → a.parentHash = c.parentHash → a.hash = c.hash)
    else decide (∀ a ∈ l, a.hash ∈ J → b.weight < a.weight → a.number - b.number ≤ t)))

theorem closes_of {root : Hash} {t : Int} {bs : List PB} (h : ∀ x ∈ splits bs, closesCheck root t x.1 x.2.1 = true) :
    ClosesGaps root t bs := by
  intro l b l2 e
  subst e
  have := h _ mem_splits
  unfold closesCheck at this
  simp only [Bool.or_eq_true, Bool.and_eq_true, decide_eq_true_eq] at this
  rcases this with h | ⟨⟨⟨⟨⟨h1, h2⟩, h3⟩, h4⟩, h5⟩, h6⟩
  · exact .inl h
  · have hJ : ∀ {x}, Joined root l x ↔ x ∈ joinedList root l := joinedList_iff h1 h2
    have hK : ∀ {x}, Joined b.hash l x ↔ x ∈ joinedList b.hash l := joinedList_iff h3 h4
    refine .inr ⟨h5, ?_⟩
    split at h6
    · rename_i hp
      refine .inl ⟨hJ.mpr hp, ?_⟩
      simp only [Bool.or_eq_true, decide_eq_true_eq] at h6
      rcases h6 with (h6 | h6) | h6
      · exact .inl h6
      · exact .inr (.inl fun a ha hj => h6 a ha (hJ.mp hj))
      · exact .inr (.inr fun a ha c hc hj => h6 a ha c hc (hK.mp hj))
    · rename_i hp
      refine .inr ⟨fun hj => hp (hJ.mp hj), ?_⟩
      simp only [decide_eq_true_eq] at h6
      exact fun a ha hj => h6 a ha (hJ.mp hj)

/-- Blocks 3, 4 and 5 wait for block 2, a fork among them; the chain 6-7-8 comes tip first and overtakes; 4 is repeated. -/
def exGaps : List PB :=
  [ob 1 0 0 5, ob 4 3 3 8, ob 3 2 2 7, ob 5 3 3 9, ob 2 1 1 6, ob 8 7 3 10, ob 7 6 2 7, ob 4 3 3 8, ob 6 1 1 6]

/-- C39: this order meets the hypotheses and is not parents first. Block 2 takes blocks 3 and 5 with it, and block 6 takes blocks
7 and 8 with it. -/
example : exOCfg.lastWeight = (worldOf exGaps (-1)).weight exOCfg.lastHash ∧ FromWorld (worldOf exGaps (-1)) exGaps ∧
    (∀ b ∈ exGaps, (worldOf exGaps (-1)).Heavier b) ∧ (∀ b ∈ exGaps, (worldOf exGaps (-1)).Numbered b) ∧
    FitsWindow exOCfg exGaps ∧ (∀ b ∈ exGaps, ¬ Forbidden exOCfg.whitelist b) ∧ TreeOf exOCfg.lastHash exGaps ∧
    ClosesGaps exOCfg.lastHash exOCfg.reorgThreshold exGaps ∧ ¬ ParentsFirst exOCfg.lastHash exGaps ∧
    ∃ s, (omp0 exOCfg).run .plain (exGaps.map OOp.block) = .ok s ∧
      (sent s == [([exHash 2, exHash 3, exHash 5], []), ([exHash 6, exHash 7, exHash 8], [exHash 2, exHash 3, exHash 5])]) = true :=
  ⟨by decide +kernel, by decide +kernel, by decide +kernel, by decide +kernel,
    ⟨[exHash 1, exHash 2, exHash 3, exHash 4, exHash 5, exHash 6, exHash 7, exHash 8], by decide, by decide +kernel, by decide +kernel⟩,
    by decide +kernel, ⟨by decide +kernel, by decide +kernel⟩, closes_of (by decide +kernel),
    fun h => by
      rcases h [ob 1 0 0 5] (ob 4 3 3 8) _ rfl with h | ⟨a, ha, e⟩
      · exact absurd h (by decide +kernel)
      · rw [List.mem_singleton.mp ha] at e
        exact absurd e (by decide +kernel),
    ex_ok _ (by decide +kernel)⟩

/-- C39: the order of `C39_refuted` is not of this kind: block 6 is not the heaviest when it arrives, and two blocks wait for it. -/
example : ¬ ClosesGaps exOCfg.lastHash exOCfg.reorgThreshold exForks := by
  intro h
  have hJ : ∀ x, Joined (exHash 6) (exForks.take 6) x ↔ x ∈ joinedList (exHash 6) (exForks.take 6) := fun x =>
    joinedList_iff (by decide +kernel) (by decide +kernel)
  have hJ1 : ∀ x, Joined (exHash 1) (exForks.take 6) x ↔ x ∈ joinedList (exHash 1) (exForks.take 6) := fun x =>
    joinedList_iff (by decide +kernel) (by decide +kernel)
  rcases h (exForks.take 6) (ob 6 1 1 6) (exForks.drop 7) rfl with h | ⟨_, ⟨_, h | h | h⟩ | ⟨h, _⟩⟩
  · exact absurd h (by decide +kernel)
  · exact absurd h (by decide +kernel)
  · have := h (ob 3 2 2 7) (by simp [exForks]) ((hJ1 _).mpr (by decide +kernel))
    exact absurd this (by decide +kernel)
  · have := h (ob 4 6 2 7) (by simp [exForks]) (ob 5 6 2 7) (by simp [exForks]) ((hJ _).mpr (by decide +kernel)) rfl
    exact absurd this (by decide +kernel)
  · exact h ((hJ1 _).mpr (by decide +kernel))

end Verif
