import Verif.Proofs.OrderingParents
import Verif.Spec.OrderingGaps
/-! Delivery with gaps that close. -/
namespace Verif
open Spec

variable {D : PB → Prop} {o : MapOrder} {U : List Hash} {W : World}

/-! ## Marking all that waits -/

theorem foldMark {α : Type} {E : Fault → Prop} {f : OMP → α → Except Fault OMP} {Q : GMap Hash (GMap Hash Unit)} (g : α → Hash → Prop)
    (l : List α) (hf : ∀ s, ∀ x ∈ l, OInv D s → Room U s → s.queued = Q →
      Out E (fun s' => Mark U (Known D) s s' ∧ ∀ d, g x d → d ∈ s'.finished.items) (f s x)) :
    ∀ {s : OMP}, OInv D s → Room U s → s.queued = Q →
      Out E (fun s' => Mark U (Known D) s s' ∧ ∀ x ∈ l, ∀ d, g x d → d ∈ s'.finished.items) (l.foldlM f s) := by
  induction l with
  | nil => intro s _ hr _; exact ⟨Mark.refl hr, by simp⟩
  | cons a l ih =>
    intro s hI hr hq
    rw [List.foldlM_cons]
    refine (hf s a (by simp) hI hr hq).bind (fun s1 h1 => ?_)
    refine (ih (fun s x hx => hf s x (by simp [hx])) (hI.shrink h1.1.shrink) h1.1.room (h1.1.queued.trans hq)).imp (fun s2 h2 => ⟨h1.1.trans h2.1, ?_⟩)
    intro x hx d hd
    rcases List.mem_cons.mp hx with e | hx
    · subst e; exact h2.1.mono d (h1.2 d hd)
    · exact h2.2 x hx d hd

theorem finishChildren_all (hU : ∀ b, D b → b.hash ∈ U) (n : Nat) (s : OMP) (h : Hash) (hI : OInv D s) (hr : Room U s)
    (hk : Known D h) : Out (fun _ => True) (fun s' => Mark U (Known D) s s' ∧ ∀ d, Waits s.queued h d → d ∈ s'.finished.items)
      (OMP.finishPendingChildrenAux o n s h) := by
  induction n generalizing s h with
  | zero => exact trivial
  | succ n ih =>
    unfold OMP.finishPendingChildrenAux
    simp only []
    have hhU : h ∈ U := by obtain ⟨b, hb, e⟩ := hk; exact e ▸ hU b hb
    refine ((finAdd_mark (o := o) s hr hhU).mono (E' := fun _ => True) (fun _ _ => trivial) (fun _ h => h)).bind (fun s1 h1 => ?_)
    obtain ⟨h1, hin⟩ := h1
    have h1 := h1.mono' (G := Known D) (fun x hx => hx ▸ hk)
    split
    · rename_i hc
      refine ⟨h1, ?_⟩
      intro d hd
      cases hd with
      | self => exact hin
      | step g1 _ _ => rw [hc] at g1; simp at g1
    · rename_i children hc
      have h2 := h1.trans (Mark.tick (F := Known D) h1.room (s1.tick + 1))
      refine (foldMark (D := D) (U := U) (Q := s.queued) (E := fun _ => True) (fun x d => Waits s.queued x d) _
        (f := fun s c => OMP.finishPendingChildrenAux o n s c) ?_ (hI.shrink h2.shrink) h2.room h2.queued).imp ?_
      · intro s2 c hm hI2 hr2 hq2
        obtain ⟨b, hb, hbc, _⟩ := hI.que _ _ c hc (mem_ord.mp hm)
        have := ih s2 c hI2 hr2 ⟨b, hb, hbc⟩
        rw [hq2] at this
        exact this
      · rintro s3 ⟨h3, h4⟩
        refine ⟨h2.trans h3, ?_⟩
        intro d hd
        cases hd with
        | self => exact h3.mono _ hin
        | step g1 g2 g3 =>
          rw [hc] at g1
          simp only [Option.some.injEq] at g1
          subst g1
          exact h4 _ (mem_ord.mpr ((GMap.contains_iff_mem_keys _).mp g2)) d g3

theorem finishSiblings_all (hN : ∀ b, D b → W.Numbered b) (hU : ∀ b, D b → b.hash ∈ U) (s : OMP) (pb : PB) (hI : OInv D s)
    (hr : Room U s) : Out (fun _ => False) (fun s' => Mark U (Known D) s s' ∧ ∀ q, s.queued.get? pb.parentHash = some q → ∀ c ∈ q.keys,
      c ≠ pb.hash → ∀ d, Waits s.queued c d → d ∈ s'.finished.items) (s.finishSiblings o pb) := by
  refine ((finishSiblings_total (o := o) hN s pb hI).and (E' := fun _ => True) (P' := fun s' => Mark U (Known D) s s' ∧
    ∀ q, s.queued.get? pb.parentHash = some q → ∀ c ∈ q.keys, c ≠ pb.hash → ∀ d, Waits s.queued c d → d ∈ s'.finished.items) ?_).mono
    (fun _ h => h.1) (fun _ h => h.2)
  unfold OMP.finishSiblings
  split
  · rename_i hq
    exact ⟨Mark.refl hr, fun q hq' => by rw [hq] at hq'; simp at hq'⟩
  · rename_i q hq
    have h2 := Mark.tick (F := Known D) hr (s.tick + 1)
    refine (foldMark (D := D) (U := U) (Q := s.queued) (E := fun _ => True) (fun x d => x ≠ pb.hash ∧ Waits s.queued x d) _
      ?_ (hI.shrink h2.shrink) h2.room h2.queued).imp ?_
    · intro s2 c hm hI2 hr2 hq2
      split
      · obtain ⟨b, hb, hbc, _⟩ := hI.que _ _ c hq (mem_ord.mp hm)
        refine (finishChildren_all (o := o) hU (s2.queued.size + 2) s2 c hI2 hr2 ⟨b, hb, hbc⟩).imp (fun s3 h3 => ⟨h3.1, ?_⟩)
        intro d hd
        exact h3.2 d (by rw [hq2]; exact hd.2)
      · rename_i hc
        exact ⟨Mark.refl hr2, fun d hd => (hc hd.1).elim⟩
    · rintro s3 ⟨h3, h4⟩
      refine ⟨h2.trans h3, ?_⟩
      intro q' hq' c hc hne d hd
      rw [hq] at hq'
      simp only [Option.some.injEq] at hq'
      subst hq'
      exact h4 c (mem_ord.mpr hc) d ⟨hne, hd⟩

/-! ## Emitting all that waits -/

/-- All waiting blocks are held. -/
def AllHeld (s : OMP) : Prop := ∀ p q c, s.queued.get? p = some q → c ∈ q.keys → ∃ b, s.pending.get? c = some b

theorem wt_held (hR : Regular W U D) {s : OMP} (hI : OInv D s) {d : Hash} {b : PB} (h : s.pending.get? d = some b) :
    wt s.pending d = W.weight d := by
  obtain ⟨e1, e2⟩ := hI.pend _ _ h
  unfold wt
  rw [h]
  simp only [Option.map_some, Option.getD_some]
  rw [(hR.has b e2).weight, e1]

/-- The head went to a heaviest block waiting on `t`, and all of them are marked. -/
structure Reached (W : World) (U : List Hash) (D : PB → Prop) (s : OMP) (t : Hash) (m : OMP) : Prop where
  mark : Mark U (Known D) { s with lastHash := m.lastHash, lastWeight := m.lastWeight } m
  tip : Waits s.queued t m.lastHash
  weight : m.lastWeight = W.weight m.lastHash
  all : ∀ d, Waits s.queued t d → d ∈ m.finished.items ∧ W.weight d ≤ m.lastWeight

theorem emitLoop_all (hR : Regular W U D) (n : Nat) (s : OMP) (new : List PB) (hs : Safe W U D s) (hf : s.lastHash ∈ s.finished.items)
    (hall : AllHeld s) (hn : above W.number s.queued s.lastHash < n) :
    Out (fun _ => False) (fun r => Reached W U D s s.lastHash r.1) (OMP.emitLoop o n s new) := by
  induction n generalizing s new with
  | zero => omega
  | succ n ih =>
    unfold OMP.emitLoop
    obtain ⟨r, hr, _⟩ := (getPendingChild_total (o := o) s (hs.inv.ranked hR.numbered) s.lastHash).total
    rw [hr]
    show Out _ _ (match r with | none => _ | some hash => _)
    cases r with
    | none =>
      have hleaf := getPendingChild_none hr
      refine ⟨Mark.refl hs.room, .self, hs.weight, ?_⟩
      intro d hd
      cases hd with
      | self => exact ⟨hf, by rw [hs.weight]; exact Nat.le_refl _⟩
      | step g1 _ _ => rw [hleaf] at g1; simp at g1
    | some c =>
      obtain ⟨b, q, hb, hD, hbc, hpar, hq, hcq⟩ := chosen_pending hR hs (by rw [hs.weight]; exact Nat.le_refl _) hr
      obtain ⟨q', M, hq', hM, hc⟩ := getPendingChild_best hr
      have hc : ∃ d, Waits s.queued c d ∧ s.queued.get? d = none ∧ wt s.pending d = M := by
        rcases hc with ⟨_, h0⟩ | ⟨_, _, hc⟩
        · exact (hR.hashed.nz b hD (hbc.trans h0)).elim
        · exact hc
      simp only []
      rw [hb]
      simp only []
      have hbw := (hR.has b hD).weight
      have hlt := hR.heavier b hD
      unfold World.Heavier at hlt
      rw [hpar] at hlt
      refine (finishSiblings_all hR.numbered hR.inU { s with tick := s.tick + 1 } b (hs.inv.of_maps rfl rfl) ⟨hs.room.1, hs.room.2, hs.room.3⟩).bind
        (fun s1 h1 => ?_)
      obtain ⟨h1, hsib⟩ := h1
      have h1 := (Mark.tick (F := Known D) hs.room (s.tick + 1)).trans h1
      have h2 := h1.head b.hash b.weight
      refine (finAdd_mark (o := o) { s1 with lastHash := b.hash, lastWeight := b.weight } h2.room (hR.inU b hD)).bind (fun s2 h3 => ?_)
      obtain ⟨h3, hbf⟩ := h3
      have h13 : ∀ x ∈ s1.finished.items, x ∈ s2.finished.items := h3.mono
      have h3 := h2.trans (h3.mono' (G := Known D) (fun x hx => ⟨b, hD, hx.symm⟩))
      have hs2 := hs.mark h3 hbw (by rw [hbw, hs.weight]; omega)
      have e2 : s2.queued = s.queued := h3.queued
      have e1 : s2.pending = s.pending := h3.pending
      have e3 : s2.lastHash = b.hash := h3.shrink.lastHash
      have hlt' := above_child W.number (q := s.queued) (p := s.lastHash) (c := b.hash) (mem_keys_of hq) (by
        have := hs.inv.ranked hR.numbered _ _ _ hq hcq; rw [hbc]; omega)
      refine (ih s2 _ hs2 (by rw [e3]; exact hbf) (by unfold AllHeld; rw [e1, e2]; exact hall) (by rw [e2, e3]; omega)).imp (fun r hr => ?_)
      obtain ⟨k1, k2, k3, k4⟩ := hr
      rw [e2, e3] at k2 k4
      have hmk := (h3.head r.1.lastHash r.1.lastWeight).trans k1
      refine ⟨hmk, .step hq (by rw [hbc]; exact (GMap.contains_iff_mem_keys _).mpr hcq) k2, k3, ?_⟩
      intro d hd
      refine ⟨?_, ?_⟩
      · cases hd with
        | self => exact k1.mono _ (h3.mono _ hf)
        | @step _ x _ q1 g1 g2 g3 =>
          have hx : x ∈ q1.keys := (GMap.contains_iff_mem_keys _).mp g2
          by_cases hxc : x = b.hash
          · subst hxc; exact (k4 d g3).1
          · exact k1.mono _ (h13 _ (hsib q1 (by rw [hpar]; exact g1) x hx hxc d g3))
      · obtain ⟨e, he1, he2⟩ := leaf_exists hR.numbered hs.inv d
        have hwe := waits_trans hd he1
        have hde : W.weight d ≤ W.weight e := by
          rcases waits_end hR hs.inv he1 with x | x
          · rw [x]; exact Nat.le_refl _
          · omega
        have hheld : ∃ x, s.pending.get? e = some x := by
          rcases waits_end hR hs.inv hwe with x | ⟨_, p, q1, x1, x2⟩
          · rw [x, hq] at he2; simp at he2
          · exact hall _ _ _ x1 x2
        obtain ⟨x, hx⟩ := hheld
        have y1 := hM e hwe he2
        rw [wt_held hR hs.inv hx] at y1
        obtain ⟨dm, m1, m2, m3⟩ := hc
        have y2 := (k4 dm (by rw [hbc]; exact m1)).2
        have hdm : ∃ x, s.pending.get? dm = some x := by
          rcases waits_end hR hs.inv m1 with x | ⟨_, p, q1, x1, x2⟩
          · rw [x]; exact ⟨b, hb⟩
          · exact hall _ _ _ x1 x2
        obtain ⟨x', hx'⟩ := hdm
        rw [wt_held hR hs.inv hx'] at m3
        omega

theorem prepareEmit_all (hR : Regular W U D) (s : OMP) (new old : List PB) (hs : Safe W U D s) (hall : AllHeld s)
    {pre : List PB} {t : PB} (hnew : new = pre ++ [t]) (hD : D t) (hw : s.lastWeight ≤ t.weight) :
    Out (fun _ => False) (fun s' => ∃ m added, Reached W U D s t.hash m ∧ s' = { m with log := m.log ++ [.update added old] })
      (s.prepareEmit o new old) := by
  unfold OMP.prepareEmit
  have htw := (hR.has t hD).weight
  refine Out.bind (P := fun s1 => Mark U (Known D) { s with lastHash := t.hash, lastWeight := t.weight } s1 ∧ t.hash ∈ s1.finished.items)
    ?_ (fun s1 h1 => ?_)
  · unfold OMP.emitStart
    have : new.getLast? = some t := by rw [hnew]; simp
    rw [this]
    simp only []
    refine (finishSiblings_mark hR.numbered hR.inU { s with lastHash := t.hash, lastWeight := t.weight } t (hs.inv.of_maps rfl rfl)
      ⟨hs.room.1, hs.room.2, hs.room.3⟩).bind (fun s1 h1 => ?_)
    exact (finAdd_mark (o := o) s1 h1.room (hR.inU t hD)).imp
      (fun s2 h3 => ⟨h1.trans (h3.1.mono' (fun x hx => ⟨t, hD, hx.symm⟩)), h3.2⟩)
  · obtain ⟨h1, hf⟩ := h1
    have hs1 := hs.mark h1 htw hw
    have := above_size W.number s1.queued s1.lastHash
    have e1 : s1.pending = s.pending := h1.pending
    have e2 : s1.queued = s.queued := h1.queued
    have e3 : s1.lastHash = t.hash := h1.shrink.lastHash
    refine (emitLoop_all hR (s1.queued.size + 2) s1 new hs1 (by rw [e3]; exact hf) (by unfold AllHeld; rw [e1, e2]; exact hall)
      (by omega)).bind (fun r hr => ?_)
    obtain ⟨k1, k2, k3, k4⟩ := hr
    rw [e2, e3] at k2 k4
    exact ⟨r.1, r.2, ⟨(h1.head r.1.lastHash r.1.lastWeight).trans k1, k2, k3, k4⟩, rfl⟩

/-! ## Reorganising -/

theorem Spec.Joined.cases' {root : Hash} {bs : List PB} {h : Hash} (hj : Joined root bs h) :
    h = root ∨ ∃ b ∈ bs, b.hash = h ∧ Joined root bs b.parentHash := by
  cases hj with
  | root => exact .inl rfl
  | step h1 h2 => exact .inr ⟨_, h1, rfl, h2⟩

theorem Spec.Joined.mono {root : Hash} {bs bs' : List PB} {h : Hash} (hj : Joined root bs h) (hs : ∀ b ∈ bs, b ∈ bs') :
    Joined root bs' h := by
  induction hj with
  | root => exact .root
  | step h1 _ ih => exact .step (hs _ h1) ih

/-- Held blocks, some of which (`C`) hang together with the root. -/
structure Joins (W : World) (root : Hash) (C : Hash → Prop) (pending : GMap Hash PB) : Prop where
  filed : ∀ h b, pending.get? h = some b → b.hash = h ∧ W.Has b ∧ W.Numbered b
  base : C root
  down : ∀ h b, pending.get? h = some b → C b.parentHash → C h
  up : ∀ h b, pending.get? h = some b → C h → h = root ∨ C b.parentHash ∧ ∃ p, pending.get? b.parentHash = some p
  over : ∀ h b, pending.get? h = some b → OverRoot W root b

theorem Joins.low {root : Hash} {C : Hash → Prop} {pending : GMap Hash PB} (hP : Joins W root C pending) {h : Hash} {b : PB}
    (hb : pending.get? h = some b) : h = root ∨ W.number root < W.number h := by
  obtain ⟨e1, _, e3⟩ := hP.filed _ _ hb
  unfold World.Numbered at e3
  rcases hP.over _ _ hb with e | e | e
  · exact .inl (e1.symm.trans e)
  · rw [e, e1] at e3; exact .inr (by omega)
  · rw [e1] at e3; exact .inr (by omega)

theorem reorgInner_joined {root : Hash} {C : Hash → Prop} {pending : GMap Hash PB} (hP : Joins W root C pending) (m : Int)
    (hm : W.number root ≤ m) (n : Nat) (head : PB) (bs : List PB) (hh : pending.get? head.hash = some head) (hC : C head.hash)
    (hne : head.hash ≠ root) {r : Option (PB × List PB)} (hr : reorgInner pending m n head bs = .ok r) :
    ∃ head' bs', r = some (head', bs') ∧ pending.get? head'.hash = some head' ∧ C head'.hash ∧ head'.hash ≠ root ∧ head'.number ≤ m + 1 := by
  induction n generalizing head bs with
  | zero => simp [reorgInner] at hr
  | succ n ih =>
    unfold reorgInner at hr
    have hup : C head.parentHash ∧ ∃ p, pending.get? head.parentHash = some p := (hP.up _ _ hh hC).resolve_left hne
    split at hr
    · rename_i hgt
      split at hr
      · rename_i hp
        obtain ⟨p, e⟩ := hup.2
        rw [hp] at e; simp at e
      · rename_i p hp
        obtain ⟨e1, e2, e3⟩ := hP.filed _ _ hp
        obtain ⟨_, f2, f3⟩ := hP.filed _ _ hh
        refine ih p _ (by rw [e1]; exact hp) (by rw [e1]; exact hup.1) ?_ hr
        intro e
        have := f2.number
        unfold World.Numbered at f3
        rw [← e1, e] at f3
        omega
    · rename_i hle
      simp only [Except.ok.injEq] at hr
      exact ⟨head, bs, hr.symm, hh, hC, hne, by omega⟩

theorem reorgOuter_joined {root : Hash} {C : Hash → Prop} {pending : GMap Hash PB} (hP : Joins W root C pending) (start : PB) (n : Nat)
    (head old : PB) (rev bs : List PB) (hh : pending.get? head.hash = some head) (hC : C head.hash) (hne : head.hash ≠ root)
    (ho : pending.get? old.hash = some old) (hCo : C old.hash)
    {r : ReorgResult} (hr : reorgOuter pending start n head old rev bs = .ok r) : ∃ removed added, r = .ok removed added := by
  induction n generalizing head old rev bs with
  | zero => simp [reorgOuter] at hr
  | succ n ih =>
    unfold reorgOuter at hr
    obtain ⟨r1, h1, h2⟩ := bind_ok.mp hr
    have hlow : W.number root ≤ old.number := by
      rw [(hP.filed _ _ ho).2.1.number]
      rcases hP.low ho with e | e
      · rw [e]; exact Int.le_refl _
      · omega
    obtain ⟨head', bs', rfl, h3, h3', h4, h5⟩ := reorgInner_joined hP old.number hlow _ head bs hh hC hne h1
    simp only [] at h2
    split at h2
    · simp only [Except.ok.injEq] at h2
      exact ⟨_, _, h2.symm⟩
    · rename_i hneq
      split at h2
      · rename_i hp
        have hroot : old.hash = root := by
          rcases hP.up _ _ ho hCo with e | ⟨_, p, e⟩
          · exact e
          · rw [hp] at e; simp at e
        obtain ⟨_, p, hpp⟩ := (hP.up _ _ h3 h3').resolve_left h4
        obtain ⟨_, f2, f3⟩ := hP.filed _ _ h3
        unfold World.Numbered at f3
        have e1 := f2.number
        have e2 := (hP.filed _ _ ho).2.1.number
        rw [hroot] at e2
        rcases hP.low hpp with e | e
        · exact (hneq (hroot.trans e.symm)).elim
        · omega
      · rename_i old' hp
        have := hP.filed _ _ hp
        rcases hP.up _ _ ho hCo with e | ⟨hCp, _⟩
        · have hn := (hP.filed _ _ ho).2.2
          unfold World.Numbered at hn
          rw [e] at hn
          rcases hP.low hp with e' | e'
          · rw [e'] at hn; omega
          · omega
        · exact ih head' old' _ _ h3 h3' h4 (by rw [this.1]; exact hp) (by rw [this.1]; exact hCp) h2

theorem reorgInner_stray {root : Hash} {C : Hash → Prop} {pending : GMap Hash PB} (hP : Joins W root C pending) (m : Int)
    (n : Nat) (head : PB) (bs : List PB) (hh : pending.get? head.hash = some head) (hC : ¬ C head.parentHash)
    (hne : head.hash ≠ root) {r : Option (PB × List PB)} (hr : reorgInner pending m n head bs = .ok r) :
    r = none ∨ ∃ head' bs', r = some (head', bs') ∧ pending.get? head'.hash = some head' ∧ ¬ C head'.parentHash ∧ head'.hash ≠ root ∧
      head'.number ≤ m + 1 := by
  induction n generalizing head bs with
  | zero => simp [reorgInner] at hr
  | succ n ih =>
    unfold reorgInner at hr
    split at hr
    · split at hr
      · simp only [Except.ok.injEq] at hr
        exact .inl hr.symm
      · rename_i p hp
        obtain ⟨e1, e2, e3⟩ := hP.filed _ _ hp
        refine ih p _ (by rw [e1]; exact hp) (fun h => hC (hP.down _ _ hp h)) ?_ hr
        intro e
        rw [← e1, e] at hC
        exact hC hP.base
    · rename_i hle
      simp only [Except.ok.injEq] at hr
      exact .inr ⟨head, bs, hr.symm, hh, hC, hne, by omega⟩

theorem reorgOuter_stray {root : Hash} {C : Hash → Prop} {pending : GMap Hash PB} (hP : Joins W root C pending) (start : PB) (n : Nat)
    (head old : PB) (rev bs : List PB) (hh : pending.get? head.hash = some head) (hC : ¬ C head.parentHash) (hne : head.hash ≠ root)
    (ho : pending.get? old.hash = some old) (hCo : C old.hash)
    {r : ReorgResult} (hr : reorgOuter pending start n head old rev bs = .ok r) : ∃ last, r = .missing last := by
  induction n generalizing head old rev bs with
  | zero => simp [reorgOuter] at hr
  | succ n ih =>
    unfold reorgOuter at hr
    obtain ⟨r1, h1, h2⟩ := bind_ok.mp hr
    rcases reorgInner_stray hP old.number _ head bs hh hC hne h1 with rfl | ⟨head', bs', rfl, h3, h3', h4, h5⟩
    · simp only [Except.ok.injEq] at h2
      exact ⟨_, h2.symm⟩
    · simp only [] at h2
      split at h2
      · rename_i e
        rw [← e] at h3'
        exact (h3' hCo).elim
      · split at h2
        · rename_i hp
          have hroot : old.hash = root := by
            rcases hP.up _ _ ho hCo with e | ⟨_, p, e⟩
            · exact e
            · rw [hp] at e; simp at e
          obtain ⟨_, f2, f3⟩ := hP.filed _ _ h3
          unfold World.Numbered at f3
          have e1 := f2.number
          have e2 := (hP.filed _ _ ho).2.1.number
          rw [hroot] at e2
          rcases hP.over _ _ h3 with e | e | e
          · exact (h4 e).elim
          · rw [e] at h3'; exact (h3' hP.base).elim
          · omega
        · rename_i old' hp
          have := hP.filed _ _ hp
          rcases hP.up _ _ ho hCo with e | ⟨hCp, _⟩
          · have hn := (hP.filed _ _ ho).2.2
            unfold World.Numbered at hn
            rw [e] at hn
            rcases hP.low hp with e' | e'
            · rw [e'] at hn; omega
            · omega
          · exact ih head' old' _ _ h3 h3' h4 (by rw [this.1]; exact hp) (by rw [this.1]; exact hCp) h2

/-! ## The states on the way -/

/-- `c` is filed as waiting for `p`. -/
def WaitsFor (q : GMap Hash (GMap Hash Unit)) (p c : Hash) : Prop := ∃ m, q.get? p = some m ∧ c ∈ m.keys

theorem queue_waitsFor {s : OMP} (pb : PB) {p c : Hash} (h : (p = pb.parentHash ∧ c = pb.hash) ∨ WaitsFor s.queued p c) :
    WaitsFor (s.queue pb).queued p c := by
  unfold WaitsFor OMP.queue
  simp only [GMap.get?_insert]
  rcases h with ⟨rfl, rfl⟩ | ⟨m, h1, h2⟩
  · exact ⟨_, if_pos rfl, mem_keys_insert.mpr (.inl rfl)⟩
  · by_cases e : pb.parentHash = p
    · subst e
      refine ⟨_, if_pos rfl, mem_keys_insert.mpr (.inr ?_)⟩
      rw [h1]; exact h2
    · exact ⟨m, by rw [if_neg e]; exact h1, h2⟩

/-- A state while blocks of `pre` are being handled. -/
structure Mid (W : World) (U : List Hash) (wl : GMap Nat Hash) (t : Int) (root : Hash) (pre : List PB) (s : OMP) : Prop where
  inv : OInv (· ∈ pre) s
  room : Room U s
  init : s.initEmpty = false
  wl : s.whitelist = wl
  bl : ∀ h, s.blacklist.contains h = false
  thr : s.reorgThreshold = t
  pend : ∀ b ∈ pre, ∃ b', s.pending.get? b.hash = some b'
  rootFin : root ∈ s.finished.items
  finOnly : ∀ x ∈ s.finished.items, x = root ∨ x ∈ hashes pre
  weight : s.lastWeight = W.weight s.lastHash
  head : Joined root pre s.lastHash
  calm : ∀ n, OOut.evictOlder n ∉ s.log

/-- What handling a block keeps. -/
structure Grows (s s' : OMP) : Prop where
  fin : ∀ x ∈ s.finished.items, x ∈ s'.finished.items
  que : ∀ p c, WaitsFor s.queued p c → WaitsFor s'.queued p c
  le : s.lastWeight ≤ s'.lastWeight

variable {wl : GMap Nat Hash} {t : Int} {root : Hash} {pre : List PB}

theorem Grows.trans {a b c : OMP} (h : Grows a b) (h' : Grows b c) : Grows a c :=
  ⟨fun x hx => h'.fin x (h.fin x hx), fun p x hx => h'.que p x (h.que p x hx), Nat.le_trans h.le h'.le⟩

theorem Grows.refl (s : OMP) : Grows s s := ⟨fun _ h => h, fun _ _ h => h, Nat.le_refl _⟩

theorem Grows.queue (s : OMP) (pb : PB) : Grows s (s.queue pb) := ⟨fun _ h => h, fun _ _ h => queue_waitsFor pb (.inr h), Nat.le_refl _⟩

theorem Mid.queue {s : OMP} (h : Mid W U wl t root pre s) {pb : PB} (hb : pb ∈ pre) : Mid W U wl t root pre (s.queue pb) :=
  ⟨h.inv.queue hb, ⟨h.room.1, h.room.2, h.room.3⟩, h.init, h.wl, h.bl, h.thr, h.pend, h.rootFin, h.finOnly, h.weight, h.head, h.calm⟩

theorem Mid.insert {s : OMP} (h : Mid W U wl t root pre s) {pb : PB} (hb : pb ∈ pre) :
    Mid W U wl t root pre { s with pending := s.pending.insert pb.hash pb } := by
  refine ⟨h.inv.insert hb, ⟨h.room.1, h.room.2, h.room.3⟩, h.init, h.wl, h.bl, h.thr, ?_, h.rootFin, h.finOnly, h.weight, h.head, h.calm⟩
  intro b hb'
  simp only [GMap.get?_insert]
  split
  · exact ⟨_, rfl⟩
  · exact h.pend b hb'

theorem Mid.tick {s : OMP} (h : Mid W U wl t root pre s) (n : Nat) : Mid W U wl t root pre { s with tick := n } :=
  ⟨h.inv.of_maps rfl rfl, ⟨h.room.1, h.room.2, h.room.3⟩, h.init, h.wl, h.bl, h.thr, h.pend, h.rootFin, h.finOnly, h.weight, h.head, h.calm⟩

/-- Marking blocks and moving the head to a block hanging together with the root. -/
theorem Mid.mark {F : Hash → Prop} {s m : OMP} {x : Hash} {w : Nat} (h : Mid W U wl t root pre s)
    (hm : Mark U F { s with lastHash := x, lastWeight := w } m) (hF : ∀ x, F x → Known (· ∈ pre) x) (hw : w = W.weight x)
    (hj : Joined root pre x) : Mid W U wl t root pre m := by
  have e1 : m.pending = s.pending := hm.pending
  have e2 : m.queued = s.queued := hm.queued
  refine ⟨h.inv.of_maps e1 e2, hm.room, hm.shrink.initEmpty.trans h.init, hm.shrink.whitelist.trans h.wl,
    fun y => by rw [hm.shrink.blacklist]; exact h.bl y, hm.shrink.reorgThreshold.trans h.thr, by rw [e1]; exact h.pend,
    hm.mono _ h.rootFin, ?_, ?_, ?_, by rw [hm.log]; exact h.calm⟩
  · intro y hy
    rcases hm.shrink.finished y hy with h' | h'
    · exact h.finOnly y h'
    · obtain ⟨b, hb, e⟩ := hF y h'
      exact .inr (e ▸ mem_hashes hb)
  · rw [hm.shrink.lastWeight, hm.shrink.lastHash]; exact hw
  · rw [hm.shrink.lastHash]; exact hj

theorem Mid.allHeld {s : OMP} (h : Mid W U wl t root pre s) : AllHeld s := by
  intro p q c hq hc
  obtain ⟨b, hb, e, _⟩ := h.inv.que p q c hq hc
  rw [← e]; exact h.pend b hb

theorem Mid.safe {s : OMP} (h : Mid W U wl t root pre s) : Safe W U (· ∈ pre) s :=
  ⟨h.inv, h.room, h.init, h.weight, fun p q c hq hc hp => by
    obtain ⟨b, hb⟩ := h.allHeld p q c hq hc
    rw [hp] at hb; simp at hb⟩

theorem joined_held {s : OMP} (hp : ∀ b ∈ pre, ∃ b', s.pending.get? b.hash = some b') (hroot : root ∈ hashes pre) {h : Hash}
    (hj : Joined root pre h) : ∃ b, s.pending.get? h = some b := by
  rcases hj.cases' with e | ⟨b, hb, e, _⟩
  · obtain ⟨b, hb, e'⟩ := List.mem_map.mp hroot
    rw [e, ← e']; exact hp b hb
  · rw [← e]; exact hp b hb

theorem Mid.joins {s : OMP} (h : Mid W U wl t root pre s) (hR : Regular W U (· ∈ pre)) (hroot : root ∈ hashes pre)
    (hO : ∀ b ∈ pre, OverRoot W root b) : Joins W root (Joined root pre) s.pending := by
  refine ⟨?_, .root, ?_, ?_, ?_⟩
  · intro x b hb
    obtain ⟨e1, e2⟩ := h.inv.pend _ _ hb
    exact ⟨e1, hR.has b e2, hR.numbered b e2⟩
  · intro x b hb hj
    obtain ⟨e1, e2⟩ := h.inv.pend _ _ hb
    rw [← e1]; exact .step e2 hj
  · intro x b hb hj
    obtain ⟨e1, e2⟩ := h.inv.pend _ _ hb
    rcases hj.cases' with e | ⟨b', hb', e, hj'⟩
    · exact .inl e
    · have hpar := hR.hashed.parent b' b hb' e2 (e.trans e1.symm)
      rw [hpar] at hj'
      exact .inr ⟨hj', joined_held h.pend hroot hj'⟩
  · intro x b hb
    exact hO b (h.inv.pend _ _ hb).2

theorem Mid.excludes {s : OMP} (h : Mid W U wl t root pre s) {pb : PB} (hF : ¬ Forbidden wl pb) : s.excludes pb = false := by
  unfold OMP.excludes
  rw [h.bl, h.wl, Bool.or_false]
  cases hg : wl.get? (toUint64 pb.number) with
  | none => rfl
  | some h =>
    simp only [ne_eq, decide_not, Bool.not_eq_eq_eq_not, Bool.not_false, decide_eq_true_eq]
    refine Classical.byContradiction fun hc => ?_
    exact hF ⟨h, hg, hc⟩

/-- What waits on `h` does not fork. -/
def WaitsLine (q : GMap Hash (GMap Hash Unit)) (h : Hash) : Prop :=
  ∀ d m, Waits q h d → q.get? d = some m → ∀ c ∈ m.keys, ∀ c' ∈ m.keys, c = c'

theorem waits_joined {s : OMP} (hI : OInv (· ∈ pre) s) {h d : Hash} (hw : Waits s.queued h d) (hj : Joined root pre h) :
    Joined root pre d := by
  induction hw with
  | self => exact hj
  | @step h c d q h1 h2 _ ih =>
    obtain ⟨b, hb, e1, e2⟩ := hI.que _ _ _ h1 ((GMap.contains_iff_mem_keys _).mp h2)
    exact ih (e1 ▸ .step hb (by rw [e2]; exact hj))

theorem handle_joined (hR : Regular W U (· ∈ pre)) (hroot : root ∈ hashes pre) (hO : ∀ b ∈ pre, OverRoot W root b)
    (hF : ∀ b ∈ pre, ¬ Forbidden wl b) (n : Nat) (s : OMP) (pb : PB) (reorg : Bool)
    (hs : Mid W U wl t root pre { s with pending := s.pending.insert pb.hash pb }) (hD : pb ∈ pre)
    (hn : above W.number s.queued pb.hash < n) (hj : Joined root pre pb.parentHash) (hne : pb.hash ≠ root)
    (hpf : pb.parentHash ∈ s.finished.items) (hgo : reorg = true ∨ pb.hash ∉ s.finished.items)
    (hsel : s.lastWeight < pb.weight ∨ WaitsLine s.queued pb.hash) :
    Out (fun _ => False) (fun s' => Mid W U wl t root pre s' ∧ Grows s s' ∧
      ∀ d, Waits s.queued pb.hash d → d ∈ s'.finished.items ∧ W.weight d ≤ s'.lastWeight) (OMP.handleAux o n s pb reorg) := by
  induction n generalizing s pb reorg with
  | zero => omega
  | succ n ih =>
    unfold OMP.handleAux
    have hpw := (hR.has pb hD).weight
    have hex : s.excludes pb = false := hs.excludes (hF pb hD)
    rw [hex]
    simp only [Bool.false_eq_true, if_false]
    have hp1 : ({ s with pending := s.pending.insert pb.hash pb } : OMP).pending.get? pb.hash = some pb := by simp
    have f1 : ({ s with pending := s.pending.insert pb.hash pb } : OMP).queued = s.queued := rfl
    have f2 : ({ s with pending := s.pending.insert pb.hash pb } : OMP).finished = s.finished := rfl
    have f3 : ({ s with pending := s.pending.insert pb.hash pb } : OMP).lastWeight = s.lastWeight := rfl
    generalize ({ s with pending := s.pending.insert pb.hash pb } : OMP) = s1 at *
    rw [← f1] at hn hsel ⊢
    rw [← f2] at hpf hgo
    rw [← f3] at hsel
    refine Out.imp (P := fun s' => Mid W U wl t root pre s' ∧ Grows s1 s' ∧
      ∀ d, Waits s1.queued pb.hash d → d ∈ s'.finished.items ∧ W.weight d ≤ s'.lastWeight) ?_
      (fun s' h => ⟨h.1, ⟨by rw [← f2]; exact h.2.1.fin, by rw [← f1]; exact h.2.1.que, by rw [← f3]; exact h.2.1.le⟩, h.2.2⟩)
    clear f1 f2 f3 hex
    have hjb : Joined root pre pb.hash := .step hD hj
    have emit : ∀ new old, (∃ pre', new = pre' ++ [pb]) → s1.lastWeight < pb.weight →
        Out (fun _ => False) (fun s' => Mid W U wl t root pre s' ∧ Grows s1 s' ∧
          ∀ d, Waits s1.queued pb.hash d → d ∈ s'.finished.items ∧ W.weight d ≤ s'.lastWeight) (s1.prepareEmit o new old) := by
      rintro new old ⟨pre', hnew⟩ hlt
      refine (prepareEmit_all hR s1 new old hs.safe hs.allHeld hnew hD (by omega)).imp ?_
      rintro s' ⟨m, added, hm, rfl⟩
      have hM := hs.mark hm.mark (fun _ h => h) hm.weight (waits_joined hs.inv hm.tip hjb)
      have hle := (hm.all _ .self).2
      refine ⟨⟨hM.inv.of_maps rfl rfl, ⟨hM.room.1, hM.room.2, hM.room.3⟩, hM.init, hM.wl, hM.bl, hM.thr, hM.pend, hM.rootFin, hM.finOnly,
        hM.weight, hM.head, ?_⟩, ⟨hm.mark.mono, ?_, by simp only []; omega⟩, hm.all⟩
      · intro k hk
        simp only [List.mem_append, List.mem_singleton] at hk
        rcases hk with hk | hk
        · exact hM.calm k hk
        · simp at hk
      · intro p c hh
        have : m.queued = s1.queued := hm.mark.queued
        simp only []
        rw [this]; exact hh
    unfold OMP.accept
    rw [if_neg (by
      rcases hgo with h | h
      · simp [h]
      · simp [LRU.contains, h])]
    split
    · rename_i hpar
      refine emit _ _ ⟨[], rfl⟩ ?_
      have := hR.heavier pb hD
      unfold World.Heavier at this
      rw [hpar] at this
      rw [hpw, hs.weight]; exact this
    · rw [if_neg (by simp [hs.init])]
      rw [if_pos (by simpa [LRU.contains] using hpf)]
      obtain ⟨lb, hlb⟩ := joined_held hs.pend hroot hs.head
      have hlbh := (hs.inv.pend _ _ hlb).1
      unfold OMP.onConnected
      simp only [hlb]
      by_cases hlt : s1.lastWeight < pb.weight
      · simp only [hlt, decide_true]
        obtain ⟨r, hr, hspec⟩ := (prepareReorg_spec (W := W) hs.inv.pendKeys
          (fun h b hb' => (hs.inv.pend h b hb').2) hR.numbered pb lb hD).total
        rw [hr]
        obtain ⟨removed, added, rfl⟩ := reorgOuter_joined (hs.joins hR hroot hO) pb _ pb lb _ _ hp1 hjb hne
          (by rw [hlbh]; exact hlb) (by rw [hlbh]; exact hs.head) hr
        obtain ⟨p, hk⟩ := hspec.1 _ _ rfl
        exact emit _ _ hk.last hlt
      · simp only [hlt, decide_false]
        have hline : WaitsLine s1.queued pb.hash := hsel.resolve_left hlt
        refine (finAdd_mark (o := o) s1 hs.room (hR.inU pb hD)).bind (fun s2 h2 => ?_)
        obtain ⟨h2, hpin⟩ := h2
        have hM2 := hs.mark (x := s1.lastHash) (w := s1.lastWeight) h2 (fun x hx => ⟨pb, hD, hx.symm⟩) hs.weight hs.head
        have eq2 : s2.queued = s1.queued := h2.queued
        have ew2 : s2.lastWeight = s1.lastWeight := h2.shrink.lastWeight
        have hG2 : Grows s1 s2 := ⟨h2.mono, by rw [eq2]; exact fun _ _ h => h, by rw [ew2]; exact Nat.le_refl _⟩
        obtain ⟨c?, hc, _⟩ := (getPendingChild_total (o := o) s2 (hM2.inv.ranked hR.numbered) pb.hash).total
        rw [hc]
        show Out _ _ (match c? with | none => _ | some child => _)
        cases c? with
        | none =>
          have hleaf := getPendingChild_none hc
          rw [eq2] at hleaf
          refine ⟨hM2.queue hD, hG2.trans (Grows.queue _ _), ?_⟩
          intro d hd
          cases hd with
          | self => exact ⟨hpin, by simp only [OMP.queue]; rw [ew2, ← hpw]; omega⟩
          | step g1 _ _ => rw [hleaf] at g1; simp at g1
        | some c =>
          simp only []
          obtain ⟨q, M, hq, hMx, hcc⟩ := getPendingChild_best hc
          -- the chosen child is one
          have hcq : c ∈ q.keys := by
            rcases hcc with ⟨h0, _⟩ | ⟨_, h, _⟩
            · obtain ⟨d, d1, d2⟩ := leaf_exists hR.numbered hM2.inv pb.hash
              have hx := hMx d d1 d2
              rcases waits_end hR hM2.inv d1 with e | ⟨e, p, q1, x1, x2⟩
              · rw [e, hq] at d2; simp at d2
              · obtain ⟨b, hb⟩ := hM2.allHeld _ _ _ x1 x2
                rw [wt_held hR hM2.inv hb] at hx
                omega
            · exact h
          obtain ⟨cb, hcb⟩ := hM2.allHeld _ _ _ hq hcq
          rw [hcb]
          simp only []
          obtain ⟨e1, e2, e3, e4⟩ := hM2.inv.child hR.hashed hq (.inl hcq) hcb
          have hrank := hM2.inv.ranked hR.numbered _ _ _ hq e4
          have hlt' := above_child W.number (q := s2.queued) (p := pb.hash) (c := cb.hash) (mem_keys_of hq) (by rw [e2]; omega)
          rw [eq2] at hq hlt'
          have hstep : ∀ d, Waits s1.queued cb.hash d → Waits s1.queued pb.hash d := fun d hd =>
            .step hq (by rw [e2]; exact (GMap.contains_iff_mem_keys _).mpr hcq) hd
          have hcne : cb.hash ≠ root := by
            intro e
            rcases hO pb hD with h | h | h
            · exact hne h
            · have := hR.numbered pb hD
              unfold World.Numbered at this
              rw [h] at this
              rw [← e2, e] at hrank
              omega
            · have := hR.numbered pb hD
              unfold World.Numbered at this
              rw [← e2, e] at hrank
              omega
          refine (ih { s2 with tick := s2.tick + 1 } cb true ((hM2.tick _).insert e3) e3 (by simp only []; rw [eq2]; omega)
            (by rw [e1]; exact hjb) hcne (by rw [e1]; exact hpin) (.inl rfl) (.inr ?_)).bind ?_
          · simp only []
            rw [eq2]
            intro d m hd
            exact hline d m (hstep d hd)
          · rintro s3 ⟨hM3, hG3, hall⟩
            simp only [] at hall
            rw [eq2] at hall
            have hG3' : Grows s2 s3 := ⟨hG3.fin, hG3.que, hG3.le⟩
            have hG := hG2.trans hG3'
            refine ⟨hM3.queue hD, hG.trans (Grows.queue _ _), ?_⟩
            intro d hd
            cases hd with
            | self =>
              have := hG.le
              exact ⟨hG3.fin _ hpin, by simp only [OMP.queue]; rw [← hpw]; omega⟩
            | @step _ x _ q1 g1 g2 g3 =>
              rw [hq] at g1
              simp only [Option.some.injEq] at g1
              subst g1
              have := hline pb.hash q .self hq x ((GMap.contains_iff_mem_keys _).mp g2) c hcq
              rw [this, ← e2] at g3
              exact hall d g3

theorem handle_stray (hR : Regular W U (· ∈ pre)) (hroot : root ∈ hashes pre) (hO : ∀ b ∈ pre, OverRoot W root b)
    (hF : ∀ b ∈ pre, ¬ Forbidden wl b) (n : Nat) (s : OMP) (pb : PB) (reorg : Bool)
    (hs : Mid W U wl t root pre { s with pending := s.pending.insert pb.hash pb }) (hD : pb ∈ pre)
    (hn : above W.number s.queued pb.hash < n) (hj : ¬ Joined root pre pb.parentHash) (hne : pb.hash ≠ root)
    (hyoung : pb.parentHash ∈ s.finished.items ∨ ∀ b ∈ pre, Joined root pre b.hash → pb.weight < b.weight → b.number - pb.number ≤ t)
    (hgo : reorg = true ∨ pb.hash ∉ s.finished.items) :
    Out (fun _ => False) (fun s' => Mid W U wl t root pre s' ∧ Grows s s' ∧ WaitsFor s'.queued pb.parentHash pb.hash)
      (OMP.handleAux o n s pb reorg) := by
  induction n generalizing s pb reorg with
  | zero => omega
  | succ n ih =>
    unfold OMP.handleAux
    have hpw := (hR.has pb hD).weight
    have hex : s.excludes pb = false := hs.excludes (hF pb hD)
    rw [hex]
    simp only [Bool.false_eq_true, if_false]
    have hp1 : ({ s with pending := s.pending.insert pb.hash pb } : OMP).pending.get? pb.hash = some pb := by simp
    have f1 : ({ s with pending := s.pending.insert pb.hash pb } : OMP).queued = s.queued := rfl
    have f2 : ({ s with pending := s.pending.insert pb.hash pb } : OMP).finished = s.finished := rfl
    have f3 : ({ s with pending := s.pending.insert pb.hash pb } : OMP).lastWeight = s.lastWeight := rfl
    generalize ({ s with pending := s.pending.insert pb.hash pb } : OMP) = s1 at *
    rw [← f1] at hn
    rw [← f2] at hyoung hgo
    refine Out.imp (P := fun s' => Mid W U wl t root pre s' ∧ Grows s1 s' ∧ WaitsFor s'.queued pb.parentHash pb.hash) ?_
      (fun s' h => ⟨h.1, ⟨by rw [← f2]; exact h.2.1.fin, by rw [← f1]; exact h.2.1.que, by rw [← f3]; exact h.2.1.le⟩, h.2.2⟩)
    clear f1 f2 f3 hex
    have waitsNow : ∀ s2 : OMP, Mid W U wl t root pre s2 → Grows s1 s2 → Mid W U wl t root pre (s2.queue pb) ∧ Grows s1 (s2.queue pb) ∧
        WaitsFor (s2.queue pb).queued pb.parentHash pb.hash := fun s2 h1 h2 =>
      ⟨h1.queue hD, h2.trans (Grows.queue _ _), queue_waitsFor pb (.inl ⟨rfl, rfl⟩)⟩
    obtain ⟨lb, hlb⟩ := joined_held hs.pend hroot hs.head
    have hlbh := (hs.inv.pend _ _ hlb)
    unfold OMP.accept
    rw [if_neg (by
      rcases hgo with h | h
      · simp [h]
      · simp [LRU.contains, h])]
    rw [if_neg (show ¬ pb.parentHash = s1.lastHash from fun e => hj (by rw [e]; exact hs.head)), if_neg (by simp [hs.init])]
    have fin2 : ∀ s2 : OMP, Mark U (· = pb.hash) s1 s2 → Mid W U wl t root pre s2 ∧ Grows s1 s2 := by
      intro s2 h2
      have ew2 : s2.lastWeight = s1.lastWeight := h2.shrink.lastWeight
      exact ⟨hs.mark (x := s1.lastHash) (w := s1.lastWeight) h2 (fun x hx => ⟨pb, hD, hx.symm⟩) hs.weight hs.head,
        h2.mono, by rw [h2.queued]; exact fun _ _ h => h, by rw [ew2]; exact Nat.le_refl _⟩
    split
    · unfold OMP.onConnected
      simp only [hlb]
      by_cases hlt : s1.lastWeight < pb.weight
      · simp only [hlt, decide_true]
        obtain ⟨r, hr, hspec⟩ := (prepareReorg_spec (W := W) hs.inv.pendKeys
          (fun h b hb' => (hs.inv.pend h b hb').2) hR.numbered pb lb hD).total
        rw [hr]
        obtain ⟨last, rfl⟩ := reorgOuter_stray (hs.joins hR hroot hO) pb _ pb lb _ _ hp1 hj hne
          (by rw [hlbh.1]; exact hlb) (by rw [hlbh.1]; exact hs.head) hr
        rw [hspec.2 _ rfl]
        exact waitsNow s1 hs (Grows.refl _)
      · simp only [hlt, decide_false]
        refine (finAdd_mark (o := o) s1 hs.room (hR.inU pb hD)).bind (fun s2 h2 => ?_)
        obtain ⟨h2, hpin⟩ := h2
        obtain ⟨hM2, hG2⟩ := fin2 s2 h2
        have eq2 : s2.queued = s1.queued := h2.queued
        obtain ⟨c?, hc, _⟩ := (getPendingChild_total (o := o) s2 (hM2.inv.ranked hR.numbered) pb.hash).total
        rw [hc]
        show Out _ _ (match c? with | none => _ | some child => _)
        have hspec := (getPendingChild_out (o := o) s2 pb.hash).ok hc
        cases c? with
        | none => exact waitsNow s2 hM2 hG2
        | some c =>
          simp only []
          split
          · exact waitsNow _ (hM2.tick _) ⟨hG2.fin, hG2.que, hG2.le⟩
          · rename_i cb hcb
            obtain ⟨q, hq, hcq⟩ := hspec
            obtain ⟨e1, e2, e3, e4⟩ := hM2.inv.child hR.hashed hq hcq hcb
            have hrank := hM2.inv.ranked hR.numbered _ _ _ hq e4
            have hlt' := above_child W.number (q := s2.queued) (p := pb.hash) (c := cb.hash) (mem_keys_of hq) (by rw [e2]; omega)
            rw [eq2] at hlt'
            have hnum := hR.numbered pb hD
            unfold World.Numbered at hnum
            have hcne : cb.hash ≠ root := by
              intro e
              rw [← e2, e] at hrank
              rcases hO pb hD with h | h | h
              · exact hne h
              · exact hj (h ▸ .root)
              · omega
            have hjp : ¬ Joined root pre pb.hash := by
              intro h
              rcases h.cases' with h | ⟨b, hb, e, h⟩
              · exact hne h
              · exact hj (hR.hashed.parent b pb hb hD e ▸ h)
            refine (ih { s2 with tick := s2.tick + 1 } cb true ((hM2.tick _).insert e3) e3 (by simp only []; rw [eq2]; omega)
              (by rw [e1]; exact hjp) hcne (.inl (by rw [e1]; exact hpin)) (.inl rfl)).bind ?_
            rintro s3 ⟨hM3, hG3, _⟩
            exact waitsNow s3 hM3 (hG2.trans ⟨hG3.fin, hG3.que, hG3.le⟩)
    · rename_i hnf
      have hnf : pb.parentHash ∉ s1.finished.items := by simpa [LRU.contains] using hnf
      have hyoung := hyoung.resolve_left hnf
      unfold OMP.onUnconnected
      split
      · rename_i hlight
        rw [if_neg (by
          unfold OMP.tooOld
          rw [hlb]
          have := hyoung lb hlbh.2 (by rw [hlbh.1]; exact hs.head) (by
            rw [(hR.has lb hlbh.2).weight, hlbh.1, ← hs.weight]; exact hlight)
          simp only [hs.thr, gt_iff_lt, decide_eq_true_eq]
          omega)]
        refine (finAdd_mark (o := o) s1 hs.room (hR.inU pb hD)).bind (fun s2 h2 => ?_)
        obtain ⟨hM2, hG2⟩ := fin2 s2 h2.1
        exact waitsNow s2 hM2 hG2
      · exact waitsNow s1 hs (Grows.refl _)

/-! ## One arrival, and all of them -/

/-- The state between two arrivals. -/
structure Between (W : World) (U : List Hash) (wl : GMap Nat Hash) (t : Int) (root : Hash) (pre : List PB) (s : OMP) : Prop where
  mid : Mid W U wl t root pre s
  fin : ∀ b ∈ pre, Joined root pre b.hash → b.hash ∈ s.finished.items
  que : ∀ b ∈ pre, ¬ Joined root pre b.hash → WaitsFor s.queued b.parentHash b.hash
  best : ∀ b ∈ pre, Joined root pre b.hash → b.weight ≤ s.lastWeight

theorem joined_same (hR : Regular W U (· ∈ pre ++ [pb])) (hk : pb.hash = root ∨ pb.hash ∈ hashes pre) {h : Hash}
    (hj : Joined root (pre ++ [pb]) h) : Joined root pre h := by
  induction hj with
  | root => exact .root
  | @step b hb _ ih =>
    rcases List.mem_append.mp hb with hb' | hb'
    · exact .step hb' ih
    · obtain rfl := List.mem_singleton.mp hb'
      rcases hk with e | e
      · rw [e]; exact .root
      · obtain ⟨x, hx, ex⟩ := List.mem_map.mp e
        rw [← ex]
        refine .step hx ?_
        rw [hR.hashed.parent x b (by simp [hx]) hb ex]
        exact ih

theorem joined_stray {pb : PB} (hk : ¬ Joined root pre pb.parentHash) {h : Hash} (hj : Joined root (pre ++ [pb]) h) : Joined root pre h := by
  induction hj with
  | root => exact .root
  | @step b hb _ ih =>
    rcases List.mem_append.mp hb with hb' | hb'
    · exact .step hb' ih
    · obtain rfl := List.mem_singleton.mp hb'
      exact (hk ih).elim

theorem joined_weight (hh : ∀ b ∈ pre, W.Heavier b) {h : Hash} (hj : Joined root pre h) : W.weight root ≤ W.weight h := by
  induction hj with
  | root => exact Nat.le_refl _
  | @step b hb _ ih =>
    have := hh b hb
    unfold World.Heavier at this
    omega

theorem joined_mem (hroot : root ∈ hashes pre) {h : Hash} (hj : Joined root pre h) : ∃ b ∈ pre, b.hash = h := by
  rcases hj.cases' with e | ⟨b, hb, e, _⟩
  · rw [e]
    obtain ⟨b, hb, e⟩ := List.mem_map.mp hroot
    exact ⟨b, hb, e⟩
  · exact ⟨b, hb, e⟩

theorem gap_step {pb : PB} {s : OMP} (hR : Regular W U (· ∈ pre ++ [pb])) (hO : ∀ b ∈ pre ++ [pb], OverRoot W root b)
    (hF : ∀ b ∈ pre ++ [pb], ¬ Forbidden wl b) (hs : Between W U wl t root pre s) (hc : Closes root t pre pb) :
    Out (fun _ => False) (Between W U wl t root (pre ++ [pb])) (s.handle o pb) := by
  have hpbD : pb ∈ pre ++ [pb] := by simp
  have sub : ∀ b, b ∈ pre → b ∈ pre ++ [pb] := fun b hb => by simp [hb]
  have hwt : ∀ b ∈ pre ++ [pb], b.weight = W.weight b.hash := fun b hb => (hR.has b hb).weight
  have hm := hs.mid
  have hM1 : Mid W U wl t root (pre ++ [pb]) { s with pending := s.pending.insert pb.hash pb } := by
    refine ⟨(hm.inv.mono sub).insert hpbD, ⟨hm.room.1, hm.room.2, hm.room.3⟩, hm.init, hm.wl, hm.bl, hm.thr, ?_, hm.rootFin, ?_,
      hm.weight, hm.head.mono sub, hm.calm⟩
    · intro b hb
      simp only [GMap.get?_insert]
      split
      · exact ⟨_, rfl⟩
      · rename_i hne
        rcases List.mem_append.mp hb with hb | hb
        · exact hm.pend b hb
        · exact (hne (by rw [List.mem_singleton.mp hb])).elim
    · intro x hx
      rw [hashes_append]
      exact (hm.finOnly x hx).imp id (fun h => by simp [h])
  have habove := above_size W.number s.queued pb.hash
  unfold OMP.handle
  by_cases hfin : pb.hash ∈ s.finished.items
  · have hk := hm.finOnly _ hfin
    have hex : s.excludes pb = false := hM1.excludes (hF pb hpbD)
    unfold OMP.handleAux
    rw [hex]
    simp only [Bool.false_eq_true, if_false]
    unfold OMP.accept
    rw [if_pos (by simpa [LRU.contains] using hfin)]
    refine ⟨hM1, ?_, ?_, ?_⟩
    · intro b hb hj
      rcases List.mem_append.mp hb with hb | hb
      · exact hs.fin b hb (joined_same hR hk hj)
      · rw [List.mem_singleton.mp hb]; exact hfin
    · intro b hb hj
      have hj' : ¬ Joined root pre b.hash := fun h => hj (h.mono sub)
      rcases List.mem_append.mp hb with hb | hb
      · exact hs.que b hb hj'
      · obtain rfl := List.mem_singleton.mp hb
        rcases hk with e | e
        · exact (hj (e ▸ .root)).elim
        · obtain ⟨x, hx, ex⟩ := List.mem_map.mp e
          have := hs.que x hx (by rw [ex]; exact hj')
          rw [hR.hashed.parent x b (sub x hx) hpbD ex, ex] at this
          exact this
    · intro b hb hj
      have hj' := joined_same hR hk hj
      rcases List.mem_append.mp hb with hb | hb
      · exact hs.best b hb hj'
      · obtain rfl := List.mem_singleton.mp hb
        rcases hk with e | e
        · rw [hwt b hpbD, e]
          have := joined_weight (W := W) (fun x hx => hR.heavier x (sub x hx)) hm.head
          rw [← hm.weight] at this
          exact this
        · obtain ⟨x, hx, ex⟩ := List.mem_map.mp e
          rw [hwt b hpbD, ← ex, ← hwt x (sub x hx)]
          exact hs.best x hx (by rw [ex]; exact hj')
  · have hne : pb.hash ≠ root := fun e => hfin (e ▸ hm.rootFin)
    obtain ⟨hroot, hc⟩ := hc.resolve_left hne
    have hroot' : root ∈ hashes (pre ++ [pb]) := by rw [hashes_append]; simp [hroot]
    rcases hc with ⟨hj, hc⟩ | ⟨hj, hc⟩
    · have hnew : pb.hash ∉ hashes pre := by
        intro h
        obtain ⟨x, hx, ex⟩ := List.mem_map.mp h
        refine hfin (ex ▸ hs.fin x hx (.step hx ?_))
        rw [hR.hashed.parent x pb (sub x hx) hpbD ex]; exact hj
      have hsel : s.lastWeight < pb.weight ∨ WaitsLine s.queued pb.hash := by
        rcases hc.resolve_left hnew with h | h
        · refine .inl ?_
          obtain ⟨a, ha, ea⟩ := joined_mem hroot hm.head
          have := h a ha (by rw [ea]; exact hm.head)
          rw [hwt a (sub a ha), ea, ← hm.weight] at this
          exact this
        · refine .inr ?_
          intro d m hd hq c hc c' hc'
          obtain ⟨b, hb, e1, e2⟩ := hm.inv.que _ _ _ hq hc
          obtain ⟨b', hb', e1', e2'⟩ := hm.inv.que _ _ _ hq hc'
          rw [← e1, ← e1']
          exact h b hb b' hb' (by rw [e2]; exact waits_joined hm.inv hd .root) (e2.trans e2'.symm)
      have hpf : pb.parentHash ∈ s.finished.items := by
        obtain ⟨a, ha, ea⟩ := joined_mem hroot hj
        rw [← ea]
        exact hs.fin a ha (by rw [ea]; exact hj)
      have closure : ∀ h, Joined root (pre ++ [pb]) h → Joined root pre h ∨ Waits s.queued pb.hash h := by
        intro h hjh
        induction hjh with
        | root => exact .inl .root
        | @step b hb _ ih =>
          rcases List.mem_append.mp hb with hb | hb
          · rcases ih with ih | ih
            · exact .inl (.step hb ih)
            · by_cases hjb : Joined root pre b.hash
              · exact .inl hjb
              · obtain ⟨m, h1, h2⟩ := hs.que b hb hjb
                exact .inr (waits_trans ih (.step h1 ((GMap.contains_iff_mem_keys _).mpr h2) .self))
          · rw [List.mem_singleton.mp hb]; exact .inr .self
      refine (handle_joined hR hroot' hO hF _ s pb false hM1 hpbD (by omega) (hj.mono sub) hne hpf (.inr hfin) hsel).imp ?_
      rintro s' ⟨hM, hG, hall⟩
      refine ⟨hM, ?_, ?_, ?_⟩
      · intro b hb hjb
        rcases closure _ hjb with h | h
        · obtain ⟨x, hx, ex⟩ := joined_mem hroot h
          rw [← ex]
          exact hG.fin _ (hs.fin x hx (by rw [ex]; exact h))
        · exact (hall _ h).1
      · intro b hb hjb
        rcases List.mem_append.mp hb with hb' | hb'
        · exact hG.que _ _ (hs.que b hb' (fun h => hjb (h.mono sub)))
        · obtain rfl := List.mem_singleton.mp hb'
          exact (hjb (.step hb (hj.mono sub))).elim
      · intro b hb hjb
        rcases closure _ hjb with h | h
        · obtain ⟨x, hx, ex⟩ := joined_mem hroot h
          rw [hwt b hb, ← ex, ← hwt x (sub x hx)]
          exact Nat.le_trans (hs.best x hx (by rw [ex]; exact h)) hG.le
        · rw [hwt b hb]; exact (hall _ h).2
    · have hj' : ¬ Joined root (pre ++ [pb]) pb.parentHash := fun h => hj (joined_stray hj h)
      have hstray : ¬ Joined root pre pb.hash := by
        intro h
        rcases h.cases' with h | ⟨x, hx, ex, h⟩
        · exact hne h
        · exact hj (hR.hashed.parent x pb (sub x hx) hpbD ex ▸ h)
      refine (handle_stray hR hroot' hO hF _ s pb false hM1 hpbD (by omega) hj' hne (.inr ?_) (.inr hfin)).imp ?_
      · intro b hb hjb hlt
        rcases List.mem_append.mp hb with hb | hb
        · exact hc b hb (joined_stray hj hjb) hlt
        · rw [List.mem_singleton.mp hb] at hlt; omega
      · rintro s' ⟨hM, hG, hq⟩
        refine ⟨hM, ?_, ?_, ?_⟩
        · intro b hb hjb
          have hjb := joined_stray hj hjb
          rcases List.mem_append.mp hb with hb | hb
          · exact hG.fin _ (hs.fin b hb hjb)
          · rw [List.mem_singleton.mp hb] at hjb; exact (hstray hjb).elim
        · intro b hb hjb
          rcases List.mem_append.mp hb with hb | hb
          · exact hG.que _ _ (hs.que b hb (fun h => hjb (h.mono sub)))
          · rw [List.mem_singleton.mp hb]; exact hq
        · intro b hb hjb
          have hjb := joined_stray hj hjb
          rcases List.mem_append.mp hb with hb | hb
          · exact Nat.le_trans (hs.best b hb hjb) hG.le
          · rw [List.mem_singleton.mp hb] at hjb; exact (hstray hjb).elim

theorem gap_run {post : List PB} : ∀ {pre : List PB} {s : OMP}, Regular W U (· ∈ pre ++ post) →
    (∀ b ∈ pre ++ post, OverRoot W root b) → (∀ b ∈ pre ++ post, ¬ Forbidden wl b) → Between W U wl t root pre s →
    (∀ l1 b l2, post = l1 ++ b :: l2 → Closes root t (pre ++ l1) b) →
    Out (fun _ => False) (Between W U wl t root (pre ++ post)) (s.run o (post.map OOp.block)) := by
  induction post with
  | nil => intro pre s _ _ _ h _; rw [List.append_nil]; exact h
  | cons b post ih =>
    intro pre s hR hO hF hs hc
    unfold OMP.run
    rw [List.map_cons, List.foldlM_cons]
    have hb := hc [] b post rfl
    simp only [List.append_nil] at hb
    have sub : ∀ x, x ∈ pre ++ [b] → x ∈ pre ++ b :: post := fun x hx => by
      rcases List.mem_append.mp hx with h | h
      · simp [h]
      · simp [List.mem_singleton.mp h]
    refine (gap_step (o := o) (hR.mono sub) (fun x hx => hO x (sub x hx)) (fun x hx => hF x (sub x hx)) hs hb).bind (fun s' h' => ?_)
    have := ih (pre := pre ++ [b]) (s := s') (hR.mono (fun x hx => by simpa using hx)) (fun x hx => hO x (by simpa using hx))
      (fun x hx => hF x (by simpa using hx)) h' (by
        intro l1 x l2 e
        have := hc (b :: l1) x l2 (by rw [e]; rfl)
        simpa using this)
    rw [List.append_assoc] at this
    exact this

/-! ## Trees -/

/-- In a tree every block hangs together with the root, and is over it. -/
theorem tree_joined {bs : List PB} (hN : ∀ b ∈ bs, W.Numbered b) (hT : TreeOf root bs) :
    ∀ b ∈ bs, Joined root bs b.hash ∧ (b.hash = root ∨ W.number root < W.number b.hash) := by
  -- a lower bound of all numbers
  have hlow : ∃ m : Int, ∀ b ∈ bs, m ≤ W.number b.hash := by
    clear hN hT
    induction bs with
    | nil => exact ⟨0, by simp⟩
    | cons a l ih =>
      obtain ⟨m, hm⟩ := ih
      refine ⟨min m (W.number a.hash), ?_⟩
      intro b hb
      rcases List.mem_cons.mp hb with e | hb
      · subst e; omega
      · have := hm b hb; omega
  obtain ⟨m, hm⟩ := hlow
  have : ∀ k : Nat, ∀ b ∈ bs, (W.number b.hash - m).toNat = k → Joined root bs b.hash ∧ (b.hash = root ∨ W.number root < W.number b.hash) := by
    intro k
    induction k using Nat.strongRecOn with
    | ind k ih =>
      intro b hb hk
      rcases hT.2 b hb with e | e
      · exact ⟨e ▸ .root, .inl e⟩
      · obtain ⟨x, hx, ex⟩ := List.mem_map.mp e
        have h1 := hN b hb
        unfold World.Numbered at h1
        rw [← ex] at h1
        have h2 := hm x hx
        have h3 := hm b hb
        obtain ⟨g1, g2⟩ := ih _ (by omega) x hx rfl
        refine ⟨.step hb (by rw [← ex]; exact g1), .inr ?_⟩
        rcases g2 with g2 | g2
        · rw [← g2]; omega
        · omega
  intro b hb
  exact this _ b hb rfl

theorem tree_over {bs : List PB} (hN : ∀ b ∈ bs, W.Numbered b) (hT : TreeOf root bs) : ∀ b ∈ bs, OverRoot W root b := by
  intro b hb
  rcases hT.2 b hb with e | e
  · exact .inl e
  · obtain ⟨x, hx, ex⟩ := List.mem_map.mp e
    rcases (tree_joined hN hT x hx).2 with g | g
    · exact .inr (.inl (ex.symm.trans g))
    · exact .inr (.inr (by rw [← ex]; exact g))

end Verif
