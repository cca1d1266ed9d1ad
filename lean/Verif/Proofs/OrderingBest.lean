import Verif.Proofs.OrderingTerm
/-! The emit loop follows the heaviest waiting chain. -/
namespace Verif
open Spec

variable {D : PB → Prop} {o : MapOrder}

/-- The weight recorded for a hash. -/
def wt (pending : GMap Hash PB) (h : Hash) : Nat := ((pending.get? h).map PB.weight).getD 0

theorem foldlM_max {f : Hash → Except Fault Nat} {l : List Hash} : ∀ {a r : Nat},
    l.foldlM (fun max child => do
        let weight ← f child
        .ok (if max < weight then weight else max)) a = .ok r →
    a ≤ r ∧ (∀ c ∈ l, ∃ w, f c = .ok w ∧ w ≤ r) ∧ (r = a ∨ ∃ c ∈ l, f c = .ok r) := by
  induction l with
  | nil =>
    intro a r h
    simp only [List.foldlM_nil, pure, Except.pure, Except.ok.injEq] at h
    subst h; simp
  | cons c l ih =>
    intro a r h
    rw [List.foldlM_cons] at h
    obtain ⟨a', h1, h2⟩ := bind_ok.mp h
    obtain ⟨w, h3, h4⟩ := bind_ok.mp h1
    simp only [Except.ok.injEq] at h4
    obtain ⟨i1, i2, i3⟩ := ih h2
    have hwa : a ≤ a' ∧ w ≤ a' ∧ (a' = a ∨ a' = w) := by
      rw [← h4]; split
      · exact ⟨by omega, by omega, .inr rfl⟩
      · exact ⟨by omega, by omega, .inl rfl⟩
    refine ⟨by omega, ?_, ?_⟩
    · intro x hx
      rcases List.mem_cons.mp hx with e | hx
      · subst e; exact ⟨w, h3, by omega⟩
      · exact i2 x hx
    · rcases i3 with e | ⟨x, hx, e⟩
      · rcases hwa.2.2 with e' | e'
        · exact .inl (by omega)
        · exact .inr ⟨c, by simp, by rw [e, e']; exact h3⟩
      · exact .inr ⟨x, by simp [hx], e⟩

/-- The difficulty is the maximal weight of an end of a waiting chain. -/
theorem difficulty_spec {q : GMap Hash (GMap Hash Unit)} {pending : GMap Hash PB} {n : Nat} {h : Hash} {w : Nat}
    (hd : chainDifficultyAux q pending n h = .ok w) :
    (∀ d, Waits q h d → q.get? d = none → wt pending d ≤ w) ∧
    (w = 0 ∨ ∃ d, Waits q h d ∧ q.get? d = none ∧ wt pending d = w) := by
  induction n generalizing h w with
  | zero => simp [chainDifficultyAux] at hd
  | succ n ih =>
    unfold chainDifficultyAux at hd
    split at hd
    · rename_i hq
      simp only [Except.ok.injEq] at hd
      have hw : wt pending h = w := by
        rw [← hd]; unfold wt
        cases pending.get? h <;> rfl
      refine ⟨?_, .inr ⟨h, .self, hq, hw⟩⟩
      intro d hdd _
      cases hdd with
      | self => omega
      | step h1 _ _ => rw [hq] at h1; simp at h1
    · rename_i ch hq
      obtain ⟨_, h2, h3⟩ := foldlM_max (f := chainDifficultyAux q pending n) hd
      constructor
      · intro d hdd hleaf
        cases hdd with
        | self => rw [hq] at hleaf; simp at hleaf
        | step g1 g2 g3 =>
          rw [hq] at g1; simp only [Option.some.injEq] at g1; subst g1
          obtain ⟨w', e1, e2⟩ := h2 _ ((GMap.contains_iff_mem_keys _).mp g2)
          exact Nat.le_trans ((ih e1).1 d g3 hleaf) e2
      · rcases h3 with e | ⟨c, hc, e⟩
        · exact .inl e
        · rcases (ih e).2 with e' | ⟨d, g1, g2, g3⟩
          · exact .inl e'
          · exact .inr ⟨d, .step hq ((GMap.contains_iff_mem_keys _).mpr hc) g1, g2, g3⟩

theorem foldlM_best {f : Hash → Except Fault Nat} {l : List Hash} : ∀ {a r : Nat × Hash},
    l.foldlM (fun (acc : Nat × Hash) child => do
      let td ← f child
      .ok (if acc.1 < td then (td, child) else acc)) a = .ok r →
    a.1 ≤ r.1 ∧ (∀ c ∈ l, ∃ w, f c = .ok w ∧ w ≤ r.1) ∧ (r = a ∨ (a.1 < r.1 ∧ r.2 ∈ l ∧ f r.2 = .ok r.1)) := by
  induction l with
  | nil =>
    intro a r h
    simp only [List.foldlM_nil, pure, Except.pure, Except.ok.injEq] at h
    subst h; simp
  | cons c l ih =>
    intro a r h
    rw [List.foldlM_cons] at h
    obtain ⟨a', h1, h2⟩ := bind_ok.mp h
    obtain ⟨w, h3, h4⟩ := bind_ok.mp h1
    simp only [Except.ok.injEq] at h4
    obtain ⟨i1, i2, i3⟩ := ih h2
    have hwa : a.1 ≤ a'.1 ∧ w ≤ a'.1 ∧ (a' = a ∨ (a.1 < w ∧ a' = (w, c))) := by
      rw [← h4]; split
      · exact ⟨by simp only []; omega, by simp, .inr ⟨by assumption, rfl⟩⟩
      · exact ⟨by omega, by omega, .inl rfl⟩
    refine ⟨by omega, ?_, ?_⟩
    · intro x hx
      rcases List.mem_cons.mp hx with e | hx
      · subst e; exact ⟨w, h3, by omega⟩
      · exact i2 x hx
    · rcases i3 with e | ⟨g1, g2, g3⟩
      · rcases hwa.2.2 with e' | ⟨e1, e2⟩
        · exact .inl (e.trans e')
        · subst e; subst e2
          exact .inr ⟨e1, by simp, h3⟩
      · exact .inr ⟨by omega, by simp [g2], g3⟩

/-- The child found carries a heaviest end. -/
theorem getPendingChild_best {s : OMP} {h c : Hash} (hg : s.getPendingChild o h = .ok (some c)) :
    ∃ q M, s.queued.get? h = some q ∧ (∀ d, Waits s.queued h d → s.queued.get? d = none → wt s.pending d ≤ M) ∧
      ((M = 0 ∧ c = Hash.zero) ∨
        (0 < M ∧ c ∈ q.keys ∧ ∃ d, Waits s.queued c d ∧ s.queued.get? d = none ∧ wt s.pending d = M)) := by
  unfold OMP.getPendingChild at hg
  split at hg
  · simp at hg
  · rename_i q hq
    obtain ⟨r, h1, h2⟩ := bind_ok.mp hg
    simp only [Except.ok.injEq, Option.some.injEq] at h2
    obtain ⟨_, i2, i3⟩ := foldlM_best (f := s.chainDifficulty) h1
    refine ⟨q, r.1, hq, ?_, ?_⟩
    · intro d hd hleaf
      cases hd with
      | self => rw [hq] at hleaf; simp at hleaf
      | step g1 g2 g3 =>
        rw [hq] at g1; simp only [Option.some.injEq] at g1; subst g1
        obtain ⟨w, e1, e2⟩ := i2 _ (mem_ord.mpr ((GMap.contains_iff_mem_keys _).mp g2))
        exact Nat.le_trans ((difficulty_spec e1).1 d g3 hleaf) e2
    · rcases i3 with e | ⟨g1, g2, g3⟩
      · rw [e] at h2; rw [e]; exact .inl ⟨rfl, h2.symm⟩
      · simp only [] at g1
        refine .inr ⟨g1, h2 ▸ mem_ord.mp g2, ?_⟩
        rcases (difficulty_spec g3).2 with e | e
        · omega
        · rw [← h2]; exact e

theorem getPendingChild_none {s : OMP} {h : Hash} (hg : s.getPendingChild o h = .ok none) : s.queued.get? h = none := by
  unfold OMP.getPendingChild at hg
  split at hg
  · assumption
  · obtain ⟨r, h1, h2⟩ := bind_ok.mp hg
    simp at h2

theorem Shrink.calm {F : Hash → Prop} {s s' : OMP} (h : Shrink F s s') (hl : s'.log = s.log) :
    s'.pending = s.pending ∧ s'.queued = s.queued := by
  obtain ⟨l, e, _, hn⟩ := h.log
  rw [hl] at e
  exact hn (by simpa using e)

theorem Shrink.log_between {F : Hash → Prop} {a b : OMP} {log : List OOut} (h : Shrink F a b) (h' : ∃ l, log = b.log ++ l)
    (hl : log = a.log) : b.log = a.log := by
  obtain ⟨l, e, _, _⟩ := h.log
  obtain ⟨l', e'⟩ := h'
  rw [hl, e, List.append_assoc] at e'
  have : l ++ l' = [] := by simpa using e'
  rw [e, (List.append_eq_nil_iff.mp this).1]; simp

/-- The emit loop goes on to a heaviest end, when nothing is evicted on the way. -/
structure Best (s : OMP) (new : List PB) (r : OMP × List PB) : Prop where
  pending : r.1.pending = s.pending
  queued : r.1.queued = s.queued
  ext : ∃ ext, r.2 = new ++ ext ∧ WaitingChain s.queued s.lastHash ext ∧ endOf s.lastHash ext = r.1.lastHash
  leaf : s.queued.get? r.1.lastHash = none
  weight : wt s.pending r.1.lastHash = r.1.lastWeight
  best : ∀ d, Waits s.queued s.lastHash d → s.queued.get? d = none → wt s.pending d ≤ r.1.lastWeight

theorem emitLoop_best (hnz : ∀ b, D b → b.hash ≠ Hash.zero) (n : Nat) (s : OMP) (new : List PB) (hI : OInv D s)
    (hw : wt s.pending s.lastHash = s.lastWeight) {r : OMP × List PB} (hr : OMP.emitLoop o n s new = .ok r)
    (hl : r.1.log = s.log) : Best s new r := by
  induction n generalizing s new with
  | zero => simp [OMP.emitLoop] at hr
  | succ n ih =>
    unfold OMP.emitLoop at hr
    obtain ⟨c?, h1, h2⟩ := bind_ok.mp hr
    cases c? with
    | none =>
      simp only [Except.ok.injEq] at h2
      subst h2
      have hleaf := getPendingChild_none h1
      refine ⟨rfl, rfl, ⟨[], by simp, trivial, rfl⟩, hleaf, hw, ?_⟩
      intro d hd _
      cases hd with
      | self => rw [hw]; exact Nat.le_refl _
      | step g1 _ _ => rw [hleaf] at g1; simp at g1
    | some c =>
      simp only [] at h2
      split at h2
      · simp at h2
      · rename_i pb hp
        obtain ⟨e2, e3⟩ := hI.pend _ _ hp
        obtain ⟨q, M, hq, hM, hc⟩ := getPendingChild_best h1
        obtain ⟨s1, h3, h4⟩ := bind_ok.mp h2
        obtain ⟨s2, h5, h6⟩ := bind_ok.mp h4
        have k1 := (finishSiblings_shrink (D := D) (o := o) { s with tick := s.tick + 1 } pb (hI.of_maps rfl rfl)).ok h3
        have k1 := (Shrink.tick (Known D) s (s.tick + 1)).trans k1
        have k2 := (finAdd_shrink o { s1 with lastHash := pb.hash, lastWeight := pb.weight } (F := Known D) ⟨pb, e3, rfl⟩).ok h5
        have k3 := (k1.head pb.hash pb.weight).trans k2
        have hI2 := (hI.of_maps (s' := { s with lastHash := pb.hash, lastWeight := pb.weight }) rfl rfl).shrink k3
        have k4 := ((emitLoop_out (o := o) n s2 (new ++ [pb]) hI2).ok h6).shrink
        have hl2 : s2.log = s.log := by
          obtain ⟨l, el, _, _⟩ := k4.log
          exact k3.log_between ⟨l, el⟩ hl
        obtain ⟨c1, c2⟩ := k3.calm hl2
        simp only [] at c1 c2
        have f1 : s2.lastHash = pb.hash := k3.lastHash
        have f2 : s2.lastWeight = pb.weight := k3.lastWeight
        have hw2 : wt s2.pending s2.lastHash = s2.lastWeight := by
          rw [c1, f1, f2, e2]; unfold wt; rw [hp]; rfl
        obtain ⟨b1, b2, ⟨ext, b3, b4, b5⟩, b6, b7, b8⟩ := ih s2 _ hI2 hw2 h6 (by rw [hl, hl2])
        have hc' : 0 < M ∧ c ∈ q.keys ∧ ∃ d, Waits s.queued c d ∧ s.queued.get? d = none ∧ wt s.pending d = M := by
          rcases hc with ⟨_, h0⟩ | hc
          · exact (hnz pb e3 (e2.trans h0)).elim
          · exact hc
        rw [f1, c2] at b4
        rw [f1] at b5
        rw [c2] at b6
        rw [c1] at b7
        rw [c1, c2, f1] at b8
        refine ⟨b1.trans c1, b2.trans c2, ⟨pb :: ext, by rw [b3]; simp, ⟨⟨q, hq, ?_⟩, b4⟩, b5⟩, b6, b7, ?_⟩
        · rw [e2]; exact (GMap.contains_iff_mem_keys _).mpr hc'.2.1
        · intro d hd hleaf
          obtain ⟨dm, g1, g2, g3⟩ := hc'.2.2
          have := hM d hd hleaf
          have := b8 dm (by rw [e2]; exact g1) g2
          omega

/-- An update whose handling evicted nothing runs to a heaviest waiting end. -/
structure BestUpdate (s s' : OMP) (t : Hash) (added : List PB) : Prop where
  chain : ∃ pre b ext, added = pre ++ b :: ext ∧ Waits s.queued t b.hash ∧ WaitingChain s.queued b.hash ext
  tip : endOf s.lastHash added = s'.lastHash
  leaf : s.queued.get? s'.lastHash = none
  best : ∀ d, Waits s.queued t d → s.queued.get? d = none → wt s.pending d ≤ s'.lastWeight

theorem prepareEmit_best (hnz : ∀ b, D b → b.hash ≠ Hash.zero) (s : OMP) (new old : List PB) (hI : OInv D s) (hD : ∀ b ∈ new, D b)
    {pre : List PB} {t : PB} (hnew : new = pre ++ [t]) (ht : s.pending.get? t.hash = some t) {s' : OMP} {added : List PB}
    (hr : s.prepareEmit o new old = .ok s') (hl : s'.log = s.log ++ [.update added old]) : BestUpdate s s' t.hash added := by
  unfold OMP.prepareEmit at hr
  obtain ⟨s1, h1, h2⟩ := bind_ok.mp hr
  obtain ⟨r, h3, h4⟩ := bind_ok.mp h2
  simp only [Except.ok.injEq] at h4
  have k1 : Shrink (Known D) { s with lastHash := t.hash, lastWeight := t.weight } s1 := by
    unfold OMP.emitStart at h1
    have : new.getLast? = some t := by rw [hnew]; simp
    rw [this] at h1
    simp only [] at h1
    obtain ⟨s0, g1, g2⟩ := bind_ok.mp h1
    exact ((finishSiblings_shrink (D := D) (o := o) { s with lastHash := t.hash, lastWeight := t.weight } t (hI.of_maps rfl rfl)).ok g1).trans
      ((finAdd_shrink o s0 (F := Known D) ⟨t, hD t (by rw [hnew]; simp), rfl⟩).ok g2)
  have hI1 := (hI.of_maps (s' := { s with lastHash := t.hash, lastWeight := t.weight }) rfl rfl).shrink k1
  have k2 := (emitLoop_out (o := o) _ s1 new hI1).ok h3
  have hlog : r.1.log ++ [.update r.2 old] = s.log ++ [.update added old] := by rw [← hl, ← h4]
  obtain ⟨hlog1, hlog2⟩ := List.append_inj' hlog rfl
  simp only [List.cons.injEq, OOut.update.injEq, and_true] at hlog2
  have hl1 : s1.log = s.log := by
    obtain ⟨l, el, _, _⟩ := k2.shrink.log
    exact k1.log_between ⟨l, el⟩ hlog1
  obtain ⟨c1, c2⟩ := k1.calm hl1
  simp only [] at c1 c2
  have f1 : s1.lastHash = t.hash := k1.lastHash
  have f2 : s1.lastWeight = t.weight := k1.lastWeight
  have hw : wt s1.pending s1.lastHash = s1.lastWeight := by
    rw [c1, f1, f2]; unfold wt; rw [ht]; rfl
  obtain ⟨b1, b2, ⟨ext, b3, b4, b5⟩, b6, b7, b8⟩ := emitLoop_best hnz _ s1 new hI1 hw h3 (by rw [hlog1, hl1])
  rw [f1, c2] at b4
  rw [f1] at b5
  rw [c2] at b6
  rw [c1, c2, f1] at b8
  have e1 : s'.lastHash = r.1.lastHash := by rw [← h4]
  have e2 : s'.lastWeight = r.1.lastWeight := by rw [← h4]
  refine ⟨⟨pre, t, ext, by rw [← hlog2, b3, hnew]; simp, .self, b4⟩, ?_, by rw [e1]; exact b6, by rw [e2]; exact b8⟩
  rw [← hlog2, b3, hnew, e1, ← b5, endOf_append, endOf_append]; rfl

theorem waits_trans {q : GMap Hash (GMap Hash Unit)} {a b c : Hash} (h : Waits q a b) (h' : Waits q b c) : Waits q a c := by
  induction h with
  | self => exact h'
  | step h1 h2 _ ih => exact .step h1 h2 (ih h')

theorem handleAux_best (hH : Hashed D) (n : Nat) (s : OMP) (pb : PB) (reorg : Bool) (hI : OInv D s) (hD : D pb)
    {s' : OMP} {added removed : List PB} (hr : OMP.handleAux o n s pb reorg = .ok s')
    (hl : s'.log = s.log ++ [.update added removed]) :
    BestUpdate { s with pending := s.pending.insert pb.hash pb } s' pb.hash added := by
  induction n generalizing s pb reorg s' with
  | zero => simp [OMP.handleAux] at hr
  | succ n ih =>
    have noLog : ∀ {a : OMP}, a = s' → a.log = s.log → False := by
      intro a h2 h1
      rw [← h2, h1] at hl
      simp at hl
    unfold OMP.handleAux at hr
    split at hr
    · simp only [Except.ok.injEq] at hr
      exact (noLog hr rfl).elim
    · have hI1 := hI.insert hD
      have hp1 : ({ s with pending := s.pending.insert pb.hash pb } : OMP).pending.get? pb.hash = some pb := by
        simp
      have hl1 : s'.log = ({ s with pending := s.pending.insert pb.hash pb } : OMP).log ++ [.update added removed] := hl
      have noLog1 : ∀ {a : OMP}, a = s' → a.log = ({ s with pending := s.pending.insert pb.hash pb } : OMP).log → False := noLog
      clear hl noLog
      generalize ({ s with pending := s.pending.insert pb.hash pb } : OMP) = s1 at *
      have old : ∀ new old, s1.prepareEmit o new old = .ok s' → ∀ pre, new = pre ++ [pb] → (∀ b ∈ new, D b) →
          BestUpdate s1 s' pb.hash added := by
        intro new old he pre hnew hnD
        obtain ⟨ext, hs⟩ := (prepareEmit_out (o := o) s1 new old hI1 hnD).ok he
        obtain ⟨l, _, el⟩ := hs.log
        rw [hl1, List.append_assoc] at el
        have el := List.append_cancel_left el
        have hlen : l = [] := by
          cases l with
          | nil => rfl
          | cons x l => simp at el
        subst hlen
        simp only [List.nil_append, List.cons.injEq, OOut.update.injEq, and_true] at el
        obtain ⟨_, rfl⟩ := el
        exact prepareEmit_best hH.nz s1 new removed hI1 hnD hnew hp1 he hl1
      have stuck : ∀ {a : OMP} {F : Hash → Prop}, Shrink F s1 a → a.queue pb = s' → False := by
        intro a F h1 h2
        obtain ⟨l, el, ho, _⟩ := h1.log
        have e3 : s'.log = a.log := by rw [← h2]; rfl
        rw [hl1, el] at e3
        have e3 := List.append_cancel_left e3
        obtain ⟨n, hx⟩ := ho (.update added removed) (by rw [← e3]; simp)
        simp at hx
      unfold OMP.accept at hr
      split at hr
      · simp only [Except.ok.injEq] at hr
        exact (noLog1 hr rfl).elim
      · split at hr
        · exact old _ _ hr [] rfl (by simpa using hD)
        · split at hr
          · exact old _ _ hr [] rfl (by simpa using hD)
          · split at hr
            · unfold OMP.onConnected at hr
              split at hr
              · rename_i lastBlock hlast _
                obtain ⟨r, g1, g2⟩ := bind_ok.mp hr
                split at g2
                · rename_i removed' added'
                  obtain ⟨p, hk⟩ := (prepareReorg_out hI1.pendKeys pb lastBlock).ok g1 _ _ rfl
                  obtain ⟨pre, hpre⟩ := hk.last
                  refine old _ _ g2 pre hpre ?_
                  intro b hb
                  rcases hk.addedIn b hb with e | ⟨x, e⟩
                  · exact e ▸ hD
                  · exact (hI1.pend _ _ e).2
                · simp only [Except.ok.injEq] at g2
                  exact (noLog1 g2 rfl).elim
                · simp only [Except.ok.injEq] at g2
                  exact (noLog1 g2 rfl).elim
              · obtain ⟨s2, g1, g2⟩ := bind_ok.mp hr
                have h2 := (finAdd_shrink o s1 (F := Known D) ⟨pb, hD, rfl⟩).ok g1
                have hI2 := hI1.shrink h2
                obtain ⟨c?, g3, g4⟩ := bind_ok.mp g2
                cases c? with
                | none =>
                  simp only [Except.ok.injEq] at g4
                  exact (stuck h2 g4).elim
                | some c =>
                  simp only [] at g4
                  split at g4
                  · simp only [Except.ok.injEq] at g4
                    exact (stuck (h2.trans (Shrink.tick _ s2 (s2.tick + 1))) g4).elim
                  · rename_i cb hcb
                    obtain ⟨s3, g5, g6⟩ := bind_ok.mp g4
                    simp only [Except.ok.injEq] at g6
                    obtain ⟨q, M, hq, hM, hc⟩ := getPendingChild_best g3
                    have hc0 : c ∈ q.keys ∨ c = Hash.zero := by
                      rcases hc with h | h
                      · exact .inr h.2
                      · exact .inl h.2.1
                    obtain ⟨e1, e2, e3, e4⟩ := hI2.child hH hq hc0 hcb
                    have hc' : 0 < M ∧ c ∈ q.keys ∧ ∃ d, Waits s2.queued c d ∧ s2.queued.get? d = none ∧ wt s2.pending d = M := by
                      rcases hc with ⟨_, h0⟩ | hc
                      · exact (hH.nz cb e3 (e2.trans h0)).elim
                      · exact hc
                    have hlog3 : s3.log = s1.log ++ [.update added removed] := by rw [← hl1, ← g6]; rfl
                    have hh := (handleAux_out (N := False) (D := D) (o := o) (fun h => h.elim) n { s2 with tick := s2.tick + 1 } cb true
                      (hI2.of_maps rfl rfl) (fun _ => e3)).ok g5
                    obtain ⟨l1, el1, ho1, hn1⟩ := h2.log
                    have hl2 : l1 = [] := by
                      rcases hh.out with ⟨_, _, l, hl, el⟩ | ⟨a', r', hu⟩
                      · simp only [] at el
                        rw [hlog3, el1, List.append_assoc] at el
                        have el := List.append_cancel_left el
                        obtain ⟨n, hx⟩ := (ho1.append hl) (.update added removed) (by rw [← el]; simp)
                        simp at hx
                      · obtain ⟨l, hl, el⟩ := hu.log
                        simp only [] at el
                        rw [hlog3, el1] at el
                        simp only [List.append_assoc] at el
                        have el := List.append_cancel_left el
                        cases l1 with
                        | nil => rfl
                        | cons x l1 => simp at el
                    subst hl2
                    obtain ⟨c1, c2⟩ := hn1 rfl
                    have hlog2 : s2.log = s1.log := by rw [el1]; simp
                    have hb := ih { s2 with tick := s2.tick + 1 } cb true (hI2.of_maps rfl rfl) e3 g5
                      (by simp only []; rw [hlog2]; exact hlog3)
                    have hwt : ∀ d, wt (s2.pending.insert cb.hash cb) d = wt s1.pending d := by
                      intro d
                      unfold wt
                      rw [GMap.get?_insert, ← c1]
                      split
                      · rename_i e; rw [← e, e2, hcb]
                      · rfl
                    obtain ⟨⟨pre, b, ext, b1, b2, b3⟩, b4, b5, b6⟩ := hb
                    simp only [] at b2 b3 b4 b5 b6
                    rw [c2] at b2 b3 b5 b6 hq
                    have f1 : s'.lastHash = s3.lastHash := by rw [← g6]; rfl
                    have f2 : s'.lastWeight = s3.lastWeight := by rw [← g6]; rfl
                    have hstep : Waits s1.queued pb.hash cb.hash :=
                      .step hq (by rw [e2]; exact (GMap.contains_iff_mem_keys _).mpr hc'.2.1) .self
                    refine ⟨⟨pre, b, ext, b1, waits_trans hstep b2, b3⟩, ?_, by rw [f1]; exact b5, ?_⟩
                    · rw [f1, ← b4, h2.lastHash]
                    · intro d hd hleaf
                      obtain ⟨dm, m1, m2, m3⟩ := hc'.2.2
                      rw [c2] at m1 m2 hM
                      have x1 := hM d hd hleaf
                      have x2 := b6 dm (by rw [e2]; exact m1) m2
                      rw [hwt, ← c1] at x2
                      rw [c1] at x1
                      rw [f2]; omega
            · unfold OMP.onUnconnected at hr
              split at hr
              · split at hr
                · simp only [Except.ok.injEq] at hr
                  exact (noLog1 hr rfl).elim
                · obtain ⟨s2, g1, g2⟩ := bind_ok.mp hr
                  simp only [Except.ok.injEq] at g2
                  exact (stuck ((finAdd_shrink o s1 (F := Known D) ⟨pb, hD, rfl⟩).ok g1) g2).elim
              · simp only [Except.ok.injEq] at hr
                exact (noLog1 hr rfl).elim

end Verif
