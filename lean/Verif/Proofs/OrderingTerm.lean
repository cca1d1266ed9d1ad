import Verif.Proofs.OrderingRun
/-! The recursions of the ordering layer end when block numbers go up by one along parent links. -/
namespace Verif
open Spec

variable {D : PB → Prop} {o : MapOrder}

/-- Keys at or above the number of `h`. -/
def above {V : Type} (num : Hash → Int) (q : GMap Hash V) (h : Hash) : Nat :=
  (q.keys.filter (fun k => num h ≤ num k)).length

theorem above_mono {V : Type} (num : Hash → Int) {q' q : GMap Hash V} (hs : Sub q' q) {h h' : Hash} (hh : num h ≤ num h') :
    above num q' h' ≤ above num q h := by
  unfold above
  refine nodup_length_le (List.filter_sublist.nodup q'.nodup) ?_
  intro x hx
  rw [List.mem_filter] at hx ⊢
  refine ⟨hs.keys hx.1, ?_⟩
  have := hx.2
  simp only [decide_eq_true_eq] at this ⊢
  omega

theorem above_size {V : Type} (num : Hash → Int) (q : GMap Hash V) (h : Hash) : above num q h ≤ q.size := by
  unfold above
  have := List.length_filter_le (fun k => decide (num h ≤ num k)) q.keys
  simpa [GMap.keys, GMap.size] using this

theorem above_child {V : Type} (num : Hash → Int) {q : GMap Hash V} {p c : Hash} (hp : p ∈ q.keys) (hc : num p < num c) :
    above num q c < above num q p := by
  unfold above
  have : (p :: q.keys.filter (fun k => num c ≤ num k)).Nodup := by
    rw [List.nodup_cons]
    refine ⟨?_, List.filter_sublist.nodup q.nodup⟩
    intro h
    have := (List.mem_filter.mp h).2
    simp only [decide_eq_true_eq] at this
    omega
  have := nodup_length_le (l' := q.keys.filter (fun k => num p ≤ num k)) this ?_
  · simp only [List.length_cons] at this; omega
  · intro x hx
    rw [List.mem_filter]
    rcases List.mem_cons.mp hx with e | e
    · subst e; exact ⟨hp, by simp⟩
    · have := List.mem_filter.mp e
      refine ⟨this.1, ?_⟩
      have := this.2
      simp only [decide_eq_true_eq] at this ⊢
      omega

theorem mem_keys_of {V : Type} {q : GMap Hash V} {h : Hash} {v : V} (h1 : q.get? h = some v) : h ∈ q.keys :=
  (GMap.mem_keys_iff _).mpr ⟨v, h1⟩

/-- Queued children are one above their parents. -/
def Ranked (num : Hash → Int) (q : GMap Hash (GMap Hash Unit)) : Prop :=
  ∀ p ch c, q.get? p = some ch → c ∈ ch.keys → num c = num p + 1

theorem Ranked.sub {num : Hash → Int} {q q' : GMap Hash (GMap Hash Unit)} (h : Ranked num q) (hs : Sub q' q) : Ranked num q' :=
  fun p ch c h1 h2 => h p ch c (hs _ _ h1) h2

theorem OInv.ranked {W : World} {s : OMP} (h : OInv D s) (hN : ∀ b, D b → W.Numbered b) : Ranked W.number s.queued := by
  intro p q c hq hc
  obtain ⟨b, hb, rfl, rfl⟩ := h.que p q c hq hc
  exact hN b hb

theorem difficulty_total (num : Hash → Int) {q : GMap Hash (GMap Hash Unit)} (pending : GMap Hash PB) (hR : Ranked num q)
    (n : Nat) (h : Hash) (hn : above num q h < n) :
    Out (fun _ => False) (fun _ => True) (chainDifficultyAux q pending n h) := by
  induction n generalizing h with
  | zero => omega
  | succ n ih =>
    unfold chainDifficultyAux
    split
    · trivial
    · rename_i ch hc
      refine Out.foldlM ?_ trivial
      intro max c hm _
      have h1 := hR _ _ _ hc hm
      have h2 := above_child num (mem_keys_of hc) (c := c) (p := h) (by omega)
      exact (ih c (by omega)).bind (fun _ _ => trivial)

theorem getPendingChild_total {num : Hash → Int} (s : OMP) (hR : Ranked num s.queued) (h : Hash) :
    Out (fun _ => False) (fun _ => True) (s.getPendingChild o h) := by
  unfold OMP.getPendingChild
  split
  · trivial
  · refine Out.bind (P := fun _ => True) ?_ (fun _ _ => trivial)
    refine Out.foldlM ?_ trivial
    intro acc c _ _
    refine Out.bind (P := fun _ => True) ?_ (fun _ _ => trivial)
    have := above_size num s.queued c
    exact difficulty_total num s.pending hR _ c (by omega)

/-- With the description of the child found. -/
theorem getPendingChild_spec {num : Hash → Int} (s : OMP) (hR : Ranked num s.queued) (h : Hash) :
    Out (fun _ => False) (fun r => match r with
      | none => s.queued.get? h = none
      | some c => ∃ q, s.queued.get? h = some q ∧ (c ∈ q.keys ∨ c = Hash.zero)) (s.getPendingChild o h) :=
  ((getPendingChild_total s hR h).and (getPendingChild_out s h)).mono (fun _ h => h.1) (fun _ h => h.2)

theorem finishChildren_total {W : World} (hN : ∀ b, D b → W.Numbered b) (n : Nat) (s : OMP) (h : Hash) (hI : OInv D s)
    (hk : Known D h) (hn : above W.number s.queued h < n) :
    Out (fun _ => False) (Shrink (Known D) s) (OMP.finishPendingChildrenAux o n s h) := by
  induction n generalizing s h with
  | zero => omega
  | succ n ih =>
    unfold OMP.finishPendingChildrenAux
    simp only []
    refine (finAdd_out o s hk hI.pendKeys).bind (fun s1 h1 => ?_)
    split
    · exact h1
    · rename_i children hc
      refine Out.foldlM ?_ (h1.trans (Shrink.tick _ s1 _))
      intro s2 c hm h2
      obtain ⟨b, hb, hbc, hbp⟩ := hI.que _ _ c hc (mem_ord.mp hm)
      have e1 : W.number c = W.number h + 1 := by rw [← hbc, ← hbp]; exact hN b hb
      have e2 := above_child W.number (mem_keys_of hc) (c := c) (by omega)
      have e3 := above_mono W.number h2.queued (h := c) (h' := c) (by omega)
      exact (ih s2 c (hI.shrink h2) ⟨b, hb, hbc⟩ (by omega)).imp (fun _ h => h2.trans h)

theorem finishSiblings_total {W : World} (hN : ∀ b, D b → W.Numbered b) (s : OMP) (pb : PB) (hI : OInv D s) :
    Out (fun _ => False) (Shrink (Known D) s) (s.finishSiblings o pb) := by
  unfold OMP.finishSiblings
  split
  · exact Shrink.refl _ s
  · rename_i q hq
    refine Out.foldlM ?_ (Shrink.tick _ s _)
    intro s2 c hm h2
    split
    · obtain ⟨b, hb, hbc, _⟩ := hI.que _ _ c hq (mem_ord.mp hm)
      have := above_size W.number s2.queued c
      exact (finishChildren_total hN _ s2 c (hI.shrink h2) ⟨b, hb, hbc⟩ (by omega)).imp (fun _ h => h2.trans h)
    · exact h2

/-- The emit loop ends (it may panic). -/
theorem emitLoop_ends {W : World} (hH : Hashed D) (hN : ∀ b, D b → W.Numbered b) (n : Nat) (s : OMP) (new : List PB) (hI : OInv D s)
    (hn : above W.number s.queued s.lastHash < n) :
    Out (· = Fault.panic) (fun _ => True) (OMP.emitLoop o n s new) := by
  induction n generalizing s new with
  | zero => omega
  | succ n ih =>
    unfold OMP.emitLoop
    refine ((getPendingChild_spec s (hI.ranked hN) s.lastHash).mono (E' := (· = Fault.panic)) (fun _ h => h.elim) (fun _ h => h)).bind
      (fun r hr => ?_)
    split
    · trivial
    · rename_i c
      obtain ⟨q, hq, hc⟩ := hr
      simp only []
      split
      · rfl
      · rename_i pb hp
        obtain ⟨e1, e2, e3, _⟩ := hI.child hH hq hc hp
        refine ((finishSiblings_total hN (D := D) { s with tick := s.tick + 1 } pb (hI.of_maps rfl rfl)).mono
          (E' := (· = Fault.panic)) (fun _ h => h.elim) (fun _ h => h)).bind (fun s1 h1 => ?_)
        have h1 := (Shrink.tick (Known D) s (s.tick + 1)).trans h1
        have hI1 := hI.shrink h1
        refine ((finAdd_out o { s1 with lastHash := pb.hash, lastWeight := pb.weight } (F := Known D) ⟨pb, e3, rfl⟩ hI1.pendKeys).mono
          (E' := (· = Fault.panic)) (fun _ h => h.elim) (fun _ h => h)).bind (fun s2 h2 => ?_)
        have h3 := (h1.head pb.hash pb.weight).trans h2
        refine ih s2 _ ((hI.of_maps (s' := { s with lastHash := pb.hash, lastWeight := pb.weight }) rfl rfl).shrink h3) ?_
        have g1 : W.number pb.hash = W.number s.lastHash + 1 := by rw [← e1]; exact hN pb e3
        have g2 := above_child W.number (mem_keys_of hq) (c := pb.hash) (by omega)
        have g3 := above_mono W.number h3.queued (h := pb.hash) (h' := pb.hash) (by omega)
        have g4 : s2.lastHash = pb.hash := h3.lastHash
        rw [g4]
        simp only [] at g3
        omega

theorem emitStart_total {W : World} (hN : ∀ b, D b → W.Numbered b) (s : OMP) (new : List PB) (hI : OInv D s) (hD : ∀ b ∈ new, D b) :
    Out (fun _ => False) (fun s1 => Shrink (Known D)
      { s with lastHash := endOf s.lastHash new, lastWeight := endWeight s.lastWeight new } s1) (s.emitStart o new) := by
  unfold OMP.emitStart
  split
  · rename_i hn
    obtain rfl := List.getLast?_eq_none_iff.mp hn
    exact Shrink.refl _ s
  · rename_i newest hn
    have hm : newest ∈ new := List.mem_of_getLast? hn
    obtain ⟨e1, e2⟩ := getLast_endOf hn s.lastHash s.lastWeight
    rw [e1, e2]
    simp only []
    refine (finishSiblings_total hN (D := D) { s with lastHash := newest.hash, lastWeight := newest.weight } newest
      (hI.of_maps rfl rfl)).bind (fun s1 h1 => ?_)
    exact (finAdd_out o s1 (F := Known D) ⟨newest, hD _ hm, rfl⟩ (h1.pendKeys hI.pendKeys)).imp (fun _ h => h1.trans h)

theorem prepareEmit_ends {W : World} (hH : Hashed D) (hN : ∀ b, D b → W.Numbered b) (s : OMP) (new old : List PB) (hI : OInv D s)
    (hD : ∀ b ∈ new, D b) : Out (· = Fault.panic) (fun _ => True) (s.prepareEmit o new old) := by
  unfold OMP.prepareEmit
  refine ((emitStart_total hN s new hI hD).mono (E' := (· = Fault.panic)) (fun _ h => h.elim) (fun _ h => h)).bind (fun s1 h1 => ?_)
  have := above_size W.number s1.queued s1.lastHash
  exact (emitLoop_ends hH hN _ s1 new ((hI.of_maps (s' := { s with lastHash := endOf s.lastHash new, lastWeight := endWeight s.lastWeight new })
    rfl rfl).shrink h1) (by omega)).bind (fun _ _ => trivial)

theorem reorgInner_ends {W : World} {pending : GMap Hash PB} (hf : Filed pending) (hD : ∀ h b, pending.get? h = some b → D b)
    (hN : ∀ b, D b → W.Numbered b) (m : Int) (n : Nat) (head : PB) (bs : List PB) (hh : D head)
    (hn : above (fun k => - W.number k) pending head.parentHash < n) :
    Out (fun _ => False) (fun r => ∀ head' bs', r = some (head', bs') → D head') (reorgInner pending m n head bs) := by
  induction n generalizing head bs with
  | zero => omega
  | succ n ih =>
    unfold reorgInner
    split
    · split
      · intro _ _ h; simp at h
      · rename_i p hp
        have h1 := hD _ _ hp
        have h2 : W.number p.hash = W.number p.parentHash + 1 := hN p h1
        have h3 := hf _ _ hp
        have h4 := above_child (fun k => - W.number k) (mem_keys_of hp) (c := p.parentHash) (by rw [← h3, h2]; omega)
        exact ih p _ h1 (by omega)
    · intro _ _ h
      simp only [Option.some.injEq, Prod.mk.injEq] at h
      rw [← h.1]; exact hh

theorem reorgOuter_ends {W : World} {pending : GMap Hash PB} (hf : Filed pending) (hD : ∀ h b, pending.get? h = some b → D b)
    (hN : ∀ b, D b → W.Numbered b) (start : PB) (n : Nat) (head oldHead : PB) (rev bs : List PB) (hh : D head)
    (hn : above (fun k => - W.number k) pending oldHead.parentHash < n) :
    Out (fun _ => False) (fun _ => True) (reorgOuter pending start n head oldHead rev bs) := by
  induction n generalizing head oldHead rev bs with
  | zero => omega
  | succ n ih =>
    unfold reorgOuter
    have := above_size (fun k => - W.number k) pending head.parentHash
    refine (reorgInner_ends hf hD hN oldHead.number (pending.size + 2) head bs hh (by omega)).bind (fun r hr => ?_)
    split
    · trivial
    · split
      · trivial
      · split
        · trivial
        · rename_i p hp
          have h1 := hD _ _ hp
          have h2 : W.number p.hash = W.number p.parentHash + 1 := hN p h1
          have h3 := hf _ _ hp
          have h4 := above_child (fun k => - W.number k) (mem_keys_of hp) (c := p.parentHash) (by rw [← h3, h2]; omega)
          exact ih _ _ _ _ (hr _ _ rfl) (by omega)

theorem prepareReorg_ends {W : World} {pending : GMap Hash PB} (hf : Filed pending) (hD : ∀ h b, pending.get? h = some b → D b)
    (hN : ∀ b, D b → W.Numbered b) (new old : PB) (hh : D new) :
    Out (fun _ => False) (fun _ => True) (prepareReorg pending new old) := by
  have := above_size (fun k => - W.number k) pending old.parentHash
  exact reorgOuter_ends hf hD hN new _ new old _ _ hh (by omega)

/-- What `prepareReorg` returns. -/
theorem prepareReorg_spec {W : World} {pending : GMap Hash PB} (hf : Filed pending) (hD : ∀ h b, pending.get? h = some b → D b)
    (hN : ∀ b, D b → W.Numbered b) (new old : PB) (hh : D new) :
    Out (fun _ => False) (fun r => (∀ removed added, r = .ok removed added → ∃ p, Forked pending new old removed added p) ∧
      (∀ last, r = .missing last → last = new)) (prepareReorg pending new old) :=
  (((prepareReorg_ends hf hD hN new old hh).and (prepareReorg_out hf new old)).and (prepareReorg_missing pending new old)).mono
    (fun _ h => h.1.1) (fun _ h => ⟨h.1.2, h.2⟩)

theorem handleAux_ends {W : World} (hH : Hashed D) (hN : ∀ b, D b → W.Numbered b) (n : Nat) (s : OMP) (pb : PB) (reorg : Bool)
    (hI : OInv D s) (hD : D pb) (hn : above W.number s.queued pb.hash < n) :
    Out (· = Fault.panic) (fun _ => True) (OMP.handleAux o n s pb reorg) := by
  induction n generalizing s pb reorg with
  | zero => omega
  | succ n ih =>
    unfold OMP.handleAux
    split
    · trivial
    · have hI1 := hI.insert hD
      generalize hs1 : { s with pending := s.pending.insert pb.hash pb } = s1 at *
      have hq : s1.queued = s.queued := by rw [← hs1]
      rw [← hq] at hn
      clear hs1 hq hI
      have h0 : ∀ {x : Except Fault OMP}, Out (fun _ => False) (fun _ => True) x → Out (· = Fault.panic) (fun _ => True) x :=
        fun h => h.mono (fun _ h => h.elim) (fun _ h => h)
      unfold OMP.accept
      split
      · trivial
      · split
        · exact prepareEmit_ends hH hN s1 [pb] [] hI1 (by simpa using hD)
        · split
          · exact prepareEmit_ends hH hN s1 [pb] [] hI1 (by simpa using hD)
          · split
            · unfold OMP.onConnected
              split
              · rename_i lastBlock hlast _
                have k2 := (hI1.pend _ _ hlast).2
                refine ((prepareReorg_spec hI1.pendKeys (fun h b hb => (hI1.pend h b hb).2) hN pb lastBlock hD).mono
                  (E' := (· = Fault.panic)) (fun _ h => h.elim) (fun _ h => h)).bind ?_
                rintro r ⟨r1, r2⟩
                clear r2
                split
                · rename_i removed added
                  obtain ⟨p, hk⟩ := r1 _ _ rfl
                  refine prepareEmit_ends hH hN s1 added removed hI1 ?_
                  intro b hb
                  rcases hk.addedIn b hb with e | ⟨x, e⟩
                  · exact e ▸ hD
                  · exact (hI1.pend _ _ e).2
                · trivial
                · trivial
              · refine ((finAdd_out o s1 (F := Known D) ⟨pb, hD, rfl⟩ hI1.pendKeys).mono (E' := (· = Fault.panic))
                  (fun _ h => h.elim) (fun _ h => h)).bind (fun s2 h2 => ?_)
                have hI2 := hI1.shrink h2
                refine ((getPendingChild_spec s2 (hI2.ranked hN) pb.hash).mono (E' := (· = Fault.panic))
                  (fun _ h => h.elim) (fun _ h => h)).bind (fun r hr => ?_)
                split
                · trivial
                · rename_i c
                  obtain ⟨q, hq, hc⟩ := hr
                  simp only []
                  split
                  · trivial
                  · rename_i cb hcb
                    obtain ⟨e1, e2, e3, _⟩ := hI2.child hH hq hc hcb
                    refine (ih { s2 with tick := s2.tick + 1 } cb true (hI2.of_maps rfl rfl) e3 ?_).bind (fun _ _ => trivial)
                    have g1 : W.number cb.hash = W.number pb.hash + 1 := by rw [← e1]; exact hN cb e3
                    have g2 := above_child W.number (mem_keys_of hq) (c := cb.hash) (by omega)
                    have g3 := above_mono W.number h2.queued (h := pb.hash) (h' := pb.hash) (by omega)
                    simp only []
                    omega
            · unfold OMP.onUnconnected
              split
              · split
                · trivial
                · exact h0 ((finAdd_total o s1 pb.hash hI1.pendKeys).bind (fun _ _ => trivial))
              · trivial

end Verif
