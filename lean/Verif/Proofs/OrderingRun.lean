import Verif.Proofs.OrderingStep
/-! Histories of the ordering layer. -/
namespace Verif
open Spec

variable {D : PB → Prop} {o : MapOrder} {N : Prop}

/-- Induction over histories. -/
theorem orun_ind {P : List OOp → OMP → Prop} {ops : List OOp} {s0 s : OMP} (h0 : P [] s0)
    (step : ∀ pre op post s s', ops = pre ++ op :: post → P pre s → s.op o op = .ok s' → P (pre ++ [op]) s')
    (hr : s0.run o ops = .ok s) : P ops s := by
  have : ∀ post pre s1, ops = pre ++ post → P pre s1 → post.foldlM (OMP.op o) s1 = .ok s → P ops s := by
    intro post
    induction post with
    | nil =>
      intro pre s1 e hp h
      simp only [List.append_nil] at e
      simp only [List.foldlM_nil, pure, Except.pure, Except.ok.injEq] at h
      rw [e, ← h]; exact hp
    | cons op post ih =>
      intro pre s1 e hp h
      rw [List.foldlM_cons] at h
      obtain ⟨s2, h2, h3⟩ := bind_ok.mp h
      exact ih (pre ++ [op]) s2 (by simp [e]) (step pre op post s1 s2 e hp h2) h3
  exact this ops [] s0 rfl h0 hr

theorem eachOut_snoc {P : List OOut → OOut → Prop} {log : List OOut} {x : OOut} (h : EachOut P log) (hx : P log x) :
    EachOut P (log ++ [x]) := by
  intro l1 y l2 e
  rcases List.eq_nil_or_concat l2 with rfl | ⟨l2', z, rfl⟩
  · have := List.append_inj' e rfl
    simp only [List.cons.injEq, and_true] at this
    rw [← this.1, ← this.2]; exact hx
  · have e' : log ++ [x] = (l1 ++ y :: l2') ++ [z] := by simp [e]
    have := List.append_inj' e' rfl
    exact h l1 y l2' this.1

theorem eachOut_evicts {P : List OOut → OOut → Prop} {log l : List OOut} (h : EachOut P log) (hl : OnlyEvicts l)
    (hP : ∀ l1 n, P l1 (.evictOlder n)) : EachOut P (log ++ l) := by
  induction l generalizing log with
  | nil => simpa using h
  | cons x l ih =>
    obtain ⟨n, rfl⟩ := hl x (by simp)
    have := ih (eachOut_snoc h (hP log n)) (fun y hy => hl y (by simp [hy]))
    simpa using this

theorem eachOut_nil {P : List OOut → OOut → Prop} : EachOut P [] := by
  intro l1 x l2 e; simp at e

theorem headAfter_append (h : Hash) (a b : List OOut) : headAfter h (a ++ b) = headAfter (headAfter h a) b := by
  induction a generalizing h with
  | nil => rfl
  | cons x a ih => cases x <;> exact ih _

theorem headAfter_evicts {l : List OOut} (hl : OnlyEvicts l) (h : Hash) : headAfter h l = h := by
  induction l with
  | nil => rfl
  | cons x l ih =>
    obtain ⟨n, rfl⟩ := hl x (by simp)
    exact ih (fun y hy => hl y (by simp [hy]))

theorem newOMP_inv {cfg : Config} {s : OMP} (h : newOMP cfg = .ok s) :
    OInv D s ∧ s.lastHash = cfg.lastHash ∧ s.lastWeight = cfg.lastWeight ∧ s.whitelist = cfg.whitelist ∧ s.log = [] ∧
      s.initEmpty = decide (cfg.lastHash = Hash.zero) ∧ s.finished.cap = (2 * cfg.reorgThreshold).toNat ∧ 0 < 2 * cfg.reorgThreshold := by
  unfold newOMP at h
  split at h
  · simp at h
  · rename_i hc
    simp only [Except.ok.injEq] at h
    subst h
    refine ⟨⟨?_, ?_, ?_⟩, rfl, rfl, rfl, rfl, rfl, ?_, by omega⟩
    · intro h b hb; simp [GMap.get?, GMap.empty, GMap.look] at hb
    · intro h b c hb; simp [GMap.get?, GMap.empty, GMap.look] at hb
    · intro h b hb; simp [GMap.get?, GMap.empty, GMap.look] at hb
    · simp [LRU.add_cap, LRU.new]

theorem op_block_out (hN : N → Numbers D) {s s' : OMP} {pb : PB} (hI : OInv D s)
    (hpb : s.excludes pb = false → D pb) (h : s.op o (.block pb) = .ok s') : Handled N D s s' :=
  (handle_out hN s pb hI hpb).ok h

/-- Two chains with the same tip: one is the upper part of the other. -/
theorem same_tip (hH : Hashed D) {chain rem : List PB} : ∀ {base p : Hash}, (∀ b ∈ chain, D b) → (∀ b ∈ rem, D b) →
    Linked base chain → Linked p rem → endOf base chain = endOf p rem →
    (∃ keep gone, chain = keep ++ gone ∧ hashes gone = hashes rem ∧ endOf base keep = p) ∨
    (∃ extra gone, rem = extra ++ gone ∧ hashes gone = hashes chain ∧ endOf p extra = base) := by
  generalize hk : chain.length = k
  induction k generalizing chain rem with
  | zero =>
    intro base p _ _ _ _ h5
    obtain rfl := List.length_eq_zero_iff.mp hk
    exact .inr ⟨rem, [], by simp, by simp, h5.symm⟩
  | succ k ih =>
    intro base p h1 h2 h3 h4 h5
    rcases List.eq_nil_or_concat rem with rfl | ⟨rem', b', rfl⟩
    · exact .inl ⟨chain, [], by simp, by simp, h5⟩
    · rcases List.eq_nil_or_concat chain with rfl | ⟨chain', b, rfl⟩
      · simp at hk
      · simp only [List.concat_eq_append] at *
        rw [endOf_append, endOf_append] at h5
        have hb : b.hash = b'.hash := h5
        have hpar := hH.parent b b' (h1 b (by simp)) (h2 b' (by simp)) hb
        obtain ⟨l1, l2⟩ := linked_append.mp h3
        obtain ⟨l3, l4⟩ := linked_append.mp h4
        have e : endOf base chain' = endOf p rem' := by rw [← l2.1, ← l4.1, hpar]
        rcases ih (by simpa using hk) (fun x hx => h1 x (by simp [hx])) (fun x hx => h2 x (by simp [hx])) l1 l3 e with
          ⟨keep, gone, g1, g2, g3⟩ | ⟨extra, gone, g1, g2, g3⟩
        · refine .inl ⟨keep, gone ++ [b], by simp [g1], ?_, g3⟩
          simp only [hashes, List.map_append, List.map_cons, List.map_nil] at g2 ⊢
          rw [g2, hb]
        · refine .inr ⟨extra, gone ++ [b'], by simp [g1], ?_, g3⟩
          simp only [hashes, List.map_append, List.map_cons, List.map_nil] at g2 ⊢
          rw [g2, hb]

theorem replays_evicts {start base : Hash} {chain : List PB} {log l : List OOut} (h : Replays start log base chain)
    (hl : OnlyEvicts l) : Replays start (log ++ l) base chain := by
  induction l generalizing log with
  | nil => simpa using h
  | cons x l ih =>
    obtain ⟨n, rfl⟩ := hl x (by simp)
    have := ih (h.step (.evict (n := n))) (fun y hy => hl y (by simp [hy]))
    simpa using this

theorem endOf_ne {l : List PB} (h : l ≠ []) (a b : Hash) : endOf a l = endOf b l := by
  cases l with
  | nil => exact (h rfl).elim
  | cons x l => rfl

/-- The subscriber can follow, and its tip is the head. -/
structure Following (D : PB → Prop) (start : Hash) (s : OMP) (base : Hash) (chain : List PB) : Prop where
  replays : Replays start s.log base chain
  linked : Linked base chain
  tip : endOf base chain = s.lastHash
  chainD : ∀ b ∈ chain, D b

theorem Following.step (hH : Hashed D) {start base : Hash} {chain : List PB} {s s' : OMP} (h : Following D start s base chain)
    (hi : s.initEmpty = false) (hh : Handled N D s s') : ∃ base' chain', Following D start s' base' chain' := by
  rcases hh.out with ⟨e1, _, l, hl, e2⟩ | ⟨added, removed, hu⟩
  · exact ⟨base, chain, by rw [e2]; exact replays_evicts h.replays hl, h.linked, by rw [e1]; exact h.tip, h.chainD⟩
  · obtain ⟨l, hl, e2⟩ := hu.log
    have hr := replays_evicts h.replays hl
    cases hu.links hH with
    | next h1 h2 =>
      subst h1
      rw [← h.tip] at h2
      refine ⟨base, chain ++ added, ?_, ?_, ?_, ?_⟩
      · rw [e2]
        have := Follows.within (base := base) (keep := chain) (gone := []) (removed := []) rfl hu.ne h2
        rw [List.append_nil] at this
        exact hr.step this
      · exact linked_append.mpr ⟨h.linked, h2⟩
      · rw [endOf_append, h.tip, hu.lastHash]
      · intro b hb
        rcases List.mem_append.mp hb with hb | hb
        · exact h.chainD b hb
        · exact hu.addedD b hb
    | fork p h1 h2 h3 h4 _ _ =>
      rcases same_tip hH h.chainD hu.removedD h.linked h2 (h.tip.trans h3.symm) with
        ⟨keep, gone, g1, g2, g3⟩ | ⟨extra, gone, g1, g2, g3⟩
      · subst g1
        have hk : Linked (endOf base keep) added := by rw [g3]; exact h4
        refine ⟨base, keep ++ added, ?_, ?_, ?_, ?_⟩
        · rw [e2]; exact hr.step (Follows.within g2 hu.ne hk)
        · exact linked_append.mpr ⟨(linked_append.mp h.linked).1, hk⟩
        · rw [endOf_append, hu.lastHash]; exact endOf_ne hu.ne _ _
        · intro b hb
          rcases List.mem_append.mp hb with hb | hb
          · exact h.chainD b (by simp [hb])
          · exact hu.addedD b hb
      · subst g1
        refine ⟨p, added, ?_, h4, ?_, hu.addedD⟩
        · rw [e2]; exact hr.step (Follows.beyond g2 hu.ne h2 g3 h4)
        · rw [hu.lastHash]; exact endOf_ne hu.ne _ _
    | init _ h2 _ => rw [hi] at h2; simp at h2

theorem Spec.FromWorld.hashed {W : World} {bs : List PB} (h : FromWorld W bs) : Hashed (· ∈ bs) :=
  ⟨fun b hb => (h b hb).2, fun a b ha hb e => by rw [(h a ha).1.parent, (h b hb).1.parent, e]⟩

theorem Spec.FromWorld.numbers {W : World} {bs : List PB} (h : FromWorld W bs) (hN : ∀ b ∈ bs, W.Numbered b) :
    Numbers (· ∈ bs) := by
  intro a b ha hb e
  rw [(h a ha).1.number, (h b hb).1.number, hN a ha, e]

theorem mem_blocksOf {ops pre post : List OOp} {pb : PB} (h : ops = pre ++ .block pb :: post) : pb ∈ blocksOf ops := by
  simp [h, blocksOf]

theorem blocksOf_append (a b : List OOp) : blocksOf (a ++ b) = blocksOf a ++ blocksOf b := by
  simp [blocksOf]

/-- Every history keeps the invariants. -/
theorem run_following {W : World} {cfg : Config} {ops : List OOp} {s0 s : OMP} (h0 : cfg.lastHash ≠ Hash.zero)
    (hW : FromWorld W (blocksOf ops)) (hn : newOMP cfg = .ok s0) (hr : s0.run o ops = .ok s) :
    OInv (· ∈ blocksOf ops) s ∧ s.initEmpty = false ∧ ∃ base chain, Following (· ∈ blocksOf ops) cfg.lastHash s base chain := by
  obtain ⟨i1, i2, _, _, i5, i6, _⟩ := newOMP_inv (D := (· ∈ blocksOf ops)) hn
  refine orun_ind (o := o) (P := fun _ s => OInv (· ∈ blocksOf ops) s ∧ s.initEmpty = false ∧
    ∃ base chain, Following (· ∈ blocksOf ops) cfg.lastHash s base chain) ?_ ?_ hr
  · refine ⟨i1, by simp [i6, h0], cfg.lastHash, [], ?_, trivial, i2.symm, by simp⟩
    rw [i5]; exact .start
  · rintro pre op post s s' e ⟨hI, hi, base, chain, hf⟩ hop
    cases op with
    | block pb =>
      have hh := op_block_out (N := False) (D := (· ∈ blocksOf ops)) (fun h => h.elim) hI (fun _ => mem_blocksOf e) hop
      exact ⟨hh.inv, hh.initEmpty.trans hi, hf.step hW.hashed hi hh⟩
    | reorg num hash =>
      simp only [OMP.op, OMP.handleReorg, Except.ok.injEq] at hop
      subst hop
      exact ⟨hI.of_maps rfl rfl, hi, hash, [], hf.replays.step .reorg, trivial, rfl, by simp⟩

theorem number_endOf {W : World} {l : List PB} : ∀ {p : Hash}, Linked p l → (∀ b ∈ l, W.Numbered b) →
    W.number (endOf p l) = W.number p + l.length := by
  induction l with
  | nil => intro p _ _; simp [endOf]
  | cons b l ih =>
    intro p h hN
    have h1 := ih h.2 (fun x hx => hN x (by simp [hx]))
    have h2 : W.number b.hash = W.number b.parentHash + 1 := hN b (by simp)
    simp only [endOf, List.length_cons]
    rw [h1, h2, h.1]; omega

theorem weight_endOf {W : World} {l : List PB} : ∀ {p : Hash}, Linked p l → (∀ b ∈ l, W.Heavier b) →
    W.weight p + l.length ≤ W.weight (endOf p l) ∧ ∀ b ∈ l, W.weight b.hash ≤ W.weight (endOf p l) := by
  induction l with
  | nil => intro p _ _; simp [endOf]
  | cons b l ih =>
    intro p h hH
    obtain ⟨h1, h2⟩ := ih h.2 (fun x hx => hH x (by simp [hx]))
    have h3 : W.weight b.parentHash < W.weight b.hash := hH b (by simp)
    rw [h.1] at h3
    simp only [endOf, List.length_cons]
    refine ⟨by omega, ?_⟩
    intro x hx
    rcases List.mem_cons.mp hx with e | hx
    · rw [e]; omega
    · exact h2 x hx

theorem endWeight_eq {W : World} {l : List PB} : ∀ {w : Nat} {h : Hash}, (∀ b ∈ l, W.Has b) → w = W.weight h →
    endWeight w l = W.weight (endOf h l) := by
  induction l with
  | nil => intro w h _ e; exact e
  | cons b l ih => intro w h hH _; exact ih (fun x hx => hH x (by simp [hx])) (hH b (by simp)).weight

/-- Two chains on the same parent that share a block share their first block. -/
theorem shared_first {W : World} (hH : Hashed D) (hN : ∀ b, D b → W.Numbered b) {p : Hash} {A R : List PB} (hA : Linked p A)
    (hR : Linked p R) (dA : ∀ b ∈ A, D b) (dR : ∀ b ∈ R, D b) {a r : PB} (ha : a ∈ A) (hr : r ∈ R) (e : a.hash = r.hash) :
    ∃ x xs y ys, A = x :: xs ∧ R = y :: ys ∧ x.hash = y.hash := by
  obtain ⟨A1, A2, rfl⟩ := List.append_of_mem ha
  obtain ⟨R1, R2, rfl⟩ := List.append_of_mem hr
  have eA : A1 ++ a :: A2 = (A1 ++ [a]) ++ A2 := by simp
  have eR : R1 ++ r :: R2 = (R1 ++ [r]) ++ R2 := by simp
  rw [eA] at hA dA ⊢
  rw [eR] at hR dR ⊢
  have lA := (linked_append.mp hA).1
  have lR := (linked_append.mp hR).1
  have hfin : hashes (A1 ++ [a]) = hashes (R1 ++ [r]) := by
    rcases same_tip hH (chain := A1 ++ [a]) (rem := R1 ++ [r]) (base := p) (p := p) (fun b hb => dA b (List.mem_append_left _ hb)) (fun b hb => dR b (List.mem_append_left _ hb)) lA lR
      (by rw [endOf_append, endOf_append]; exact e) with ⟨keep, gone, g1, g2, g3⟩ | ⟨extra, gone, g1, g2, g3⟩
    · have := number_endOf (W := W) (l := keep) (p := p) (by rw [g1] at lA; exact (linked_append.mp lA).1)
        (fun b hb => hN b (dA b (List.mem_append_left _ (by rw [g1]; simp [hb]))))
      rw [g3] at this
      have hk : keep = [] := List.length_eq_zero_iff.mp (by omega)
      rw [g1, hk]; exact g2
    · have := number_endOf (W := W) (l := extra) (p := p) (by rw [g1] at lR; exact (linked_append.mp lR).1)
        (fun b hb => hN b (dR b (List.mem_append_left _ (by rw [g1]; simp [hb]))))
      rw [g3] at this
      have hk : extra = [] := List.length_eq_zero_iff.mp (by omega)
      rw [g1, hk]; exact g2.symm
  cases h1 : A1 ++ [a] with
  | nil => simp at h1
  | cons x xs =>
    cases h2 : R1 ++ [r] with
    | nil => simp at h2
    | cons y ys =>
      rw [h1, h2] at hfin
      simp only [hashes, List.map_cons, List.cons.injEq] at hfin
      exact ⟨x, xs ++ A2, y, ys ++ R2, rfl, rfl, hfin.1⟩

theorem run_fork {W : World} {cfg : Config} {ops : List OOp} {s0 s : OMP} (h0 : cfg.lastHash ≠ Hash.zero)
    (hW : FromWorld W (blocksOf ops)) (hn : newOMP cfg = .ok s0) (hr : s0.run o ops = .ok s) :
    s.lastHash = headAfter cfg.lastHash s.log ∧ EachOut (ForkAt cfg.lastHash) s.log := by
  obtain ⟨i1, i2, _, _, i5, i6, _⟩ := newOMP_inv (D := (· ∈ blocksOf ops)) hn
  have := orun_ind (o := o) (P := fun _ s => OInv (· ∈ blocksOf ops) s ∧ s.initEmpty = false ∧
    s.lastHash = headAfter cfg.lastHash s.log ∧ EachOut (ForkAt cfg.lastHash) s.log) ?_ ?_ hr
  · exact this.2.2
  · refine ⟨i1, by simp [i6, h0], by rw [i5, i2]; rfl, by rw [i5]; exact eachOut_nil⟩
  · rintro pre op post s s' e ⟨hI, hi, hh, hp⟩ hop
    cases op with
    | block pb =>
      have hd := op_block_out (N := False) (D := (· ∈ blocksOf ops)) (fun h => h.elim) hI (fun _ => mem_blocksOf e) hop
      refine ⟨hd.inv, hd.initEmpty.trans hi, ?_⟩
      rcases hd.out with ⟨e1, _, l, hl, e2⟩ | ⟨added, removed, hu⟩
      · rw [e2, headAfter_append, headAfter_evicts hl, e1]
        exact ⟨hh, eachOut_evicts hp hl (fun _ _ _ _ h => by simp at h)⟩
      · obtain ⟨l, hl, e2⟩ := hu.log
        rw [e2, headAfter_append, headAfter_append, headAfter_evicts hl, ← hh, hu.lastHash]
        refine ⟨rfl, eachOut_snoc (eachOut_evicts hp hl (fun _ _ _ _ h => by simp at h)) ?_⟩
        intro added' removed' he hne
        simp only [OOut.update.injEq] at he
        obtain ⟨rfl, rfl⟩ := he
        cases hu.links hW.hashed with
        | next h1 h2 => exact (hne h1).elim
        | fork p h1 h2 h3 h4 _ _ =>
          exact ⟨p, h2, h4, by rw [headAfter_append, headAfter_evicts hl, ← hh]; exact h3⟩
        | init h1 _ _ => exact (hne h1).elim
    | reorg num hash =>
      simp only [OMP.op, OMP.handleReorg, Except.ok.injEq] at hop
      subst hop
      refine ⟨hI.of_maps rfl rfl, hi, ?_, eachOut_snoc hp (fun _ _ h => by simp at h)⟩
      rw [headAfter_append]; rfl

theorem blocksOf_map (bs : List PB) : blocksOf (bs.map OOp.block) = bs := by
  induction bs with
  | nil => rfl
  | cons b bs ih => simp only [blocksOf, List.map_cons, List.filterMap_cons] at ih ⊢; rw [ih]

theorem of_map_block {bs : List PB} {pre post : List OOp} {op : OOp} (h : bs.map OOp.block = pre ++ op :: post) :
    ∃ b ∈ bs, op = .block b := by
  have : op ∈ bs.map OOp.block := by rw [h]; simp
  obtain ⟨b, hb, e⟩ := List.mem_map.mp this
  exact ⟨b, hb, e.symm⟩

/-- Histories without reorg notifications: the recorded weight is that of the head. -/
theorem run_heavy {W : World} {cfg : Config} {bs : List PB} {s0 s : OMP} (h0 : cfg.lastHash ≠ Hash.zero)
    (hw : cfg.lastWeight = W.weight cfg.lastHash)
    (hW : FromWorld W bs) (hh : ∀ b ∈ bs, W.Heavier b) (hn : newOMP cfg = .ok s0) (hr : s0.run o (bs.map OOp.block) = .ok s) :
    s.lastWeight = W.weight s.lastHash ∧ EachOut (HeavierAt W cfg.lastHash) s.log ∧
      ((∀ b ∈ bs, W.Numbered b) → EachOut (fun _ x => Disjoint' x) s.log) := by
  obtain ⟨i1, i2, i3, _, i5, i6, _⟩ := newOMP_inv (D := (· ∈ bs)) hn
  have := orun_ind (o := o) (P := fun _ s => OInv (· ∈ bs) s ∧ s.initEmpty = false ∧
    s.lastHash = headAfter cfg.lastHash s.log ∧ s.lastWeight = W.weight s.lastHash ∧
    EachOut (HeavierAt W cfg.lastHash) s.log ∧
    ((∀ b ∈ bs, W.Numbered b) → EachOut (fun _ x => Disjoint' x) s.log)) ?_ ?_ hr
  · exact this.2.2.2
  · refine ⟨i1, by simp [i6, h0], by rw [i5, i2]; rfl, by rw [i3, i2]; exact hw, by rw [i5]; exact eachOut_nil,
      fun _ => by rw [i5]; exact eachOut_nil⟩
  · rintro pre op post s s' e ⟨hI, hi, hd, hlw, hp, hq⟩ hop
    obtain ⟨pb, hpb, rfl⟩ := of_map_block e
    have hd' := op_block_out (N := ∀ b ∈ bs, W.Numbered b) (D := (· ∈ bs)) (fun h => hW.numbers h) hI (fun _ => hpb) hop
    refine ⟨hd'.inv, hd'.initEmpty.trans hi, ?_⟩
    rcases hd'.out with ⟨e1, e3, l, hl, e2⟩ | ⟨added, removed, hu⟩
    · rw [e2, headAfter_append, headAfter_evicts hl, e1, e3]
      exact ⟨hd, hlw, eachOut_evicts hp hl (fun _ _ _ _ h => by simp at h),
        fun h => eachOut_evicts (hq h) hl (fun _ _ _ _ h => by simp at h)⟩
    · obtain ⟨l, hl, e2⟩ := hu.log
      rw [e2, headAfter_append, headAfter_append, headAfter_evicts hl, ← hd, hu.lastHash, hu.lastWeight]
      have hlinks := hu.links hW.hashed
      have hheavy : ∀ b ∈ added, W.Heavier b := fun b hb => hh b (hu.addedD b hb)
      have hlt : W.weight s.lastHash < W.weight (endOf s.lastHash added) := by
        cases hlinks with
        | next h1 h2 =>
          have := (weight_endOf h2 hheavy).1
          have : 0 < added.length := List.length_pos_iff.mpr hu.ne
          omega
        | fork p h1 h2 h3 h4 h5 _ =>
          obtain ⟨b, hb, hbw⟩ := h5
          have := (weight_endOf h4 hheavy).2 b hb
          rw [endOf_ne hu.ne s.lastHash p]
          rw [hlw, (hW b (hu.addedD b hb)).1.weight] at hbw
          omega
        | init _ h2 _ => rw [hi] at h2; simp at h2
      refine ⟨rfl, endWeight_eq (fun b hb => (hW b (hu.addedD b hb)).1) hlw, ?_, ?_⟩
      · refine eachOut_snoc (eachOut_evicts hp hl (fun _ _ _ _ h => by simp at h)) ?_
        intro added' removed' he
        simp only [OOut.update.injEq] at he
        obtain ⟨rfl, rfl⟩ := he
        rw [headAfter_append, headAfter_evicts hl, ← hd]
        exact hlt
      · intro hN
        refine eachOut_snoc (eachOut_evicts (hq hN) hl (fun _ _ _ _ h => by simp at h)) ?_
        intro added' removed' he a ha r hr hee
        simp only [OOut.update.injEq] at he
        obtain ⟨rfl, rfl⟩ := he
        cases hlinks with
        | next h1 h2 => rw [h1] at hr; simp at hr
        | fork p h1 h2 h3 h4 h5 h6 =>
          obtain ⟨x, xs, y, ys, rfl, rfl, exy⟩ := shared_first (W := W) hW.hashed hN h4 h2 hu.addedD hu.removedD ha hr hee
          have h7 := h6 hN y ys x xs rfl rfl exy.symm
          have h8 := (weight_endOf h2 (fun b hb => hh b (hu.removedD b hb))).2 y (by simp)
          rw [h3] at h8
          rw [hlw, (hW x (hu.addedD x (by simp))).1.weight, exy] at h7
          omega
        | init h1 _ _ => rw [h1] at hr; simp at hr

theorem excluded_append {wl : GMap Nat Hash} {l : List PB} {h : Hash} (l' : List PB) (he : Excluded wl l h) :
    Excluded wl (l ++ l') h := by
  induction l' generalizing l with
  | nil => simpa using he
  | cons b l' ih => have := ih (he.later (b := b)); simpa using this

theorem excludes_blacklists {s s' : OMP} {pb : PB} (h : s.excludes pb = true) (hop : s.op o (.block pb) = .ok s') :
    s'.blacklist.contains pb.hash = true := by
  simp only [OMP.op, OMP.handle] at hop
  unfold OMP.handleAux at hop
  rw [if_pos h] at hop
  simp only [Except.ok.injEq] at hop
  subst hop
  simp [GMap.contains_insert]

theorem excluded_snoc {wl : GMap Nat Hash} {l : List PB} {b : PB} {h : Hash} (he : Excluded wl (l ++ [b]) h) :
    Excluded wl l h ∨ (h = b.hash ∧ (Forbidden wl b ∨ Excluded wl l b.parentHash)) := by
  generalize hx : l ++ [b] = x at he
  cases he with
  | white h1 =>
    have := List.append_inj' hx rfl
    simp only [List.cons.injEq, and_true] at this
    obtain ⟨rfl, rfl⟩ := this
    exact .inr ⟨rfl, .inl h1⟩
  | child h1 =>
    have := List.append_inj' hx rfl
    simp only [List.cons.injEq, and_true] at this
    obtain ⟨rfl, rfl⟩ := this
    exact .inr ⟨rfl, .inr h1⟩
  | later h1 =>
    have := List.append_inj' hx rfl
    simp only [List.cons.injEq, and_true] at this
    obtain ⟨rfl, rfl⟩ := this
    exact .inl h1

theorem excluded_nil {wl : GMap Nat Hash} {h : Hash} (he : Excluded wl [] h) : False := by
  generalize hx : ([] : List PB) = x at he
  cases he <;> simp at hx

/-- Every block of every update arrived at a time when it was not excluded. -/
theorem run_admitted {cfg : Config} {ops : List OOp} {s0 s : OMP} (hn : newOMP cfg = .ok s0) (hr : s0.run o ops = .ok s) :
    ∀ added removed, .update added removed ∈ s.log →
      (∀ b ∈ added, Admitted cfg.whitelist (blocksOf ops) b) ∧ (∀ b ∈ removed, Admitted cfg.whitelist (blocksOf ops) b) := by
  let D := Admitted cfg.whitelist (blocksOf ops)
  obtain ⟨i1, _, _, i4, i5, _⟩ := newOMP_inv (D := D) hn
  have := orun_ind (o := o) (P := fun pre s => OInv D s ∧ s.whitelist = cfg.whitelist ∧
    (∀ h, Excluded cfg.whitelist (blocksOf pre) h → s.blacklist.contains h = true) ∧
    ∀ added removed, .update added removed ∈ s.log → (∀ b ∈ added, D b) ∧ (∀ b ∈ removed, D b)) ?_ ?_ hr
  · exact this.2.2.2
  · exact ⟨i1, i4, fun h he => (excluded_nil he).elim, by rw [i5]; simp⟩
  · rintro pre op post s s' e ⟨hI, hw, hb, hu⟩ hop
    cases op with
    | block pb =>
      have hpb : s.excludes pb = false → D pb := by
        intro hx
        refine ⟨blocksOf pre, blocksOf post, ?_, ?_, ?_⟩
        · rw [e, blocksOf_append]; rfl
        · intro hf
          rw [← hw] at hf
          have := (excludes_iff s pb).mpr (.inl hf)
          rw [hx] at this; simp at this
        · intro hf
          have := (excludes_iff s pb).mpr (.inr (hb _ hf))
          rw [hx] at this; simp at this
      have hd := op_block_out (N := False) (D := D) (fun h => h.elim) hI hpb hop
      refine ⟨hd.inv, hd.whitelist.trans hw, ?_, ?_⟩
      · intro h he
        rw [blocksOf_append] at he
        have he' : Excluded cfg.whitelist (blocksOf pre ++ [pb]) h := he
        have hc := excluded_snoc he'
        clear he he'
        rcases hc with he | ⟨rfl, he⟩
        · exact hd.blacklist h (hb h he)
        · refine excludes_blacklists (o := o) ?_ hop
          rw [excludes_iff, hw]
          rcases he with he | he
          · exact .inl he
          · exact .inr (hb _ he)
      · intro added removed hm
        rcases hd.out with ⟨_, _, l, hl, e2⟩ | ⟨added', removed', hu'⟩
        · rw [e2] at hm
          rcases List.mem_append.mp hm with hm | hm
          · exact hu _ _ hm
          · obtain ⟨n, hx⟩ := hl _ hm; simp at hx
        · obtain ⟨l, hl, e2⟩ := hu'.log
          rw [e2] at hm
          rcases List.mem_append.mp hm with hm | hm
          · rcases List.mem_append.mp hm with hm | hm
            · exact hu _ _ hm
            · obtain ⟨n, hx⟩ := hl _ hm; simp at hx
          · simp only [List.mem_singleton, OOut.update.injEq] at hm
            obtain ⟨rfl, rfl⟩ := hm
            exact ⟨hu'.addedD, hu'.removedD⟩
    | reorg num hash =>
      simp only [OMP.op, OMP.handleReorg, Except.ok.injEq] at hop
      subst hop
      refine ⟨hI.of_maps rfl rfl, hw, ?_, ?_⟩
      · intro h he
        refine hb h ?_
        rw [blocksOf_append] at he
        simpa [blocksOf] using he
      · intro added removed hm
        simp only [List.mem_append, List.mem_singleton, reduceCtorEq, or_false] at hm
        exact hu _ _ hm

end Verif
