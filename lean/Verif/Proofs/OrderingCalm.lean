import Verif.Proofs.OrderingBest
import Verif.Proofs.OrderingOnce
/-! Histories that fit the window of remembered blocks: nothing is evicted, and nothing panics. -/
namespace Verif
open Spec

variable {D : PB → Prop} {o : MapOrder} {U : List Hash}

/-- All remembered hashes are in `U`, which fits the cache. -/
structure Room (U : List Hash) (s : OMP) : Prop where
  nodup : s.finished.items.Nodup
  sub : ∀ x ∈ s.finished.items, x ∈ U
  fits : U.length ≤ s.finished.cap

/-- Hashes in `F` were marked, nothing else happened. -/
structure Mark (U : List Hash) (F : Hash → Prop) (s s' : OMP) : Prop where
  shrink : Shrink F s s'
  log : s'.log = s.log
  room : Room U s'
  mono : ∀ x ∈ s.finished.items, x ∈ s'.finished.items

theorem Mark.trans {F : Hash → Prop} {a b c : OMP} (h : Mark U F a b) (h' : Mark U F b c) : Mark U F a c :=
  ⟨h.shrink.trans h'.shrink, h'.log.trans h.log, h'.room, fun x hx => h'.mono x (h.mono x hx)⟩

theorem Mark.refl {F : Hash → Prop} {s : OMP} (h : Room U s) : Mark U F s s := ⟨Shrink.refl _ _, rfl, h, fun _ h => h⟩

theorem Mark.tick {F : Hash → Prop} {s : OMP} (h : Room U s) (n : Nat) : Mark U F s { s with tick := n } :=
  ⟨Shrink.tick _ _ _, rfl, ⟨h.1, h.2, h.3⟩, fun _ h => h⟩

theorem Mark.mono' {F G : Hash → Prop} {s s' : OMP} (h : Mark U F s s') (hF : ∀ x, F x → G x) : Mark U G s s' :=
  ⟨h.shrink.mono hF, h.log, h.room, h.mono⟩

theorem Mark.pending {F : Hash → Prop} {s s' : OMP} (h : Mark U F s s') : s'.pending = s.pending := (h.shrink.calm h.log).1

theorem Mark.queued {F : Hash → Prop} {s s' : OMP} (h : Mark U F s s') : s'.queued = s.queued := (h.shrink.calm h.log).2

theorem Mark.head {F : Hash → Prop} {s s' : OMP} (h : Mark U F s s') (x : Hash) (w : Nat) :
    Mark U F { s with lastHash := x, lastWeight := w } { s' with lastHash := x, lastWeight := w } :=
  ⟨h.shrink.head x w, h.log, ⟨h.room.1, h.room.2, h.room.3⟩, h.mono⟩

theorem finAdd_mark (s : OMP) {h : Hash} (hr : Room U s) (hU : h ∈ U) :
    Out (fun _ => False) (fun s' => Mark U (· = h) s s' ∧ h ∈ s'.finished.items) (s.finAdd o h) := by
  unfold OMP.finAdd
  have hcase : (s.finished.add h).2 = none ∧ (s.finished.add h).1.items.Nodup ∧
      (∀ x, x ∈ (s.finished.add h).1.items ↔ x = h ∨ x ∈ s.finished.items) := by
    unfold LRU.add
    split
    · rename_i hm
      refine ⟨rfl, ?_, ?_⟩
      · simp only [List.nodup_cons, List.mem_filter]
        exact ⟨by simp, List.filter_sublist.nodup hr.nodup⟩
      · intro x
        simp only [List.mem_cons, List.mem_filter, decide_eq_true_eq]
        constructor
        · rintro (e | ⟨e, _⟩)
          · exact .inl e
          · exact .inr e
        · rintro (e | e)
          · exact .inl e
          · by_cases hx : x = h
            · exact .inl hx
            · exact .inr ⟨e, hx⟩
    · rename_i hm
      have hlt : s.finished.items.length < s.finished.cap := by
        have := nodup_length_le (l := h :: s.finished.items) (l' := U) (List.nodup_cons.mpr ⟨hm, hr.nodup⟩) (by
          intro x hx
          rcases List.mem_cons.mp hx with e | e
          · exact e ▸ hU
          · exact hr.sub x e)
        have hf := hr.fits
        simp only [List.length_cons] at this
        omega
      rw [if_pos hlt]
      refine ⟨rfl, List.nodup_cons.mpr ⟨hm, hr.nodup⟩, fun x => by simp⟩
  simp only []
  rw [hcase.1]
  refine ⟨⟨⟨rfl, rfl, rfl, rfl, rfl, rfl, Sub.refl _, Sub.refl _, LRU.add_cap _ _, ?_, [], by simp, OnlyEvicts.nil, fun _ => ⟨rfl, rfl⟩⟩,
    rfl, ⟨hcase.2.1, ?_, ?_⟩, ?_⟩, (hcase.2.2 h).mpr (.inl rfl)⟩
  · intro x hx
    rcases (hcase.2.2 x).mp hx with e | e
    · exact .inr e
    · exact .inl e
  · intro x hx
    rcases (hcase.2.2 x).mp hx with e | e
    · exact e ▸ hU
    · exact hr.sub x e
  · simp only [LRU.add_cap]; exact hr.fits
  · intro x hx; exact (hcase.2.2 x).mpr (.inr hx)

theorem finishChildren_mark (hU : ∀ b, D b → b.hash ∈ U) (n : Nat) (s : OMP) (h : Hash) (hI : OInv D s) (hr : Room U s) (hk : Known D h) :
    Out (fun _ => True) (Mark U (Known D) s) (OMP.finishPendingChildrenAux o n s h) := by
  induction n generalizing s h with
  | zero => exact trivial
  | succ n ih =>
    unfold OMP.finishPendingChildrenAux
    simp only []
    have hhU : h ∈ U := by obtain ⟨b, hb, e⟩ := hk; exact e ▸ hU b hb
    refine ((finAdd_mark (o := o) s hr hhU).mono (E' := fun _ => True) (fun _ _ => trivial) (fun _ h => h.1)).bind (fun s1 h1 => ?_)
    have h1 := h1.mono' (G := Known D) (fun x hx => hx ▸ hk)
    split
    · exact h1
    · rename_i children hc
      refine Out.foldlM ?_ (h1.trans (Mark.tick h1.room _))
      intro s2 c hm h2
      obtain ⟨b, hb, hbc, _⟩ := hI.que _ _ c hc (mem_ord.mp hm)
      exact (ih s2 c (hI.shrink h2.shrink) h2.room ⟨b, hb, hbc⟩).imp (fun _ h => h2.trans h)

theorem finishSiblings_mark {W : World} (hN : ∀ b, D b → W.Numbered b) (hU : ∀ b, D b → b.hash ∈ U) (s : OMP) (pb : PB) (hI : OInv D s)
    (hr : Room U s) : Out (fun _ => False) (Mark U (Known D) s) (s.finishSiblings o pb) := by
  refine ((finishSiblings_total (o := o) hN s pb hI).and (P' := Mark U (Known D) s) (E' := fun _ => True) ?_).mono (fun _ h => h.1) (fun _ h => h.2)
  unfold OMP.finishSiblings
  split
  · exact Mark.refl hr
  · rename_i q hq
    refine Out.foldlM ?_ (Mark.tick hr _)
    intro s2 c hm h2
    split
    · obtain ⟨b, hb, hbc, _⟩ := hI.que _ _ c hq (mem_ord.mp hm)
      exact (finishChildren_mark hU _ s2 c (hI.shrink h2.shrink) h2.room ⟨b, hb, hbc⟩).imp (fun _ h => h2.trans h)
    · exact h2

/-- The blocks that can arrive: they agree with the world, are heavier than their parents, and fit the window. -/
structure Regular (W : World) (U : List Hash) (D : PB → Prop) : Prop where
  hashed : Hashed D
  has : ∀ b, D b → W.Has b
  numbered : ∀ b, D b → W.Numbered b
  heavier : ∀ b, D b → W.Heavier b
  inU : ∀ b, D b → b.hash ∈ U

/-- Blocks that wait but are no longer held are not heavier than the head. -/
structure Safe (W : World) (U : List Hash) (D : PB → Prop) (s : OMP) : Prop where
  inv : OInv D s
  room : Room U s
  init : s.initEmpty = false
  weight : s.lastWeight = W.weight s.lastHash
  gone : ∀ p q c, s.queued.get? p = some q → c ∈ q.keys → s.pending.get? c = none → W.weight c ≤ s.lastWeight

theorem leaf_exists {W : World} (hN : ∀ b, D b → W.Numbered b) {s : OMP} (hI : OInv D s) (h : Hash) :
    ∃ d, Waits s.queued h d ∧ s.queued.get? d = none := by
  generalize hk : above W.number s.queued h = k
  induction k using Nat.strongRecOn generalizing h with
  | ind k ih =>
    cases hq : s.queued.get? h with
    | none => exact ⟨h, .self, hq⟩
    | some q =>
      obtain ⟨c, hc⟩ := hI.ne _ _ hq
      have hlt := above_child W.number (q := s.queued) (p := h) (c := c) (mem_keys_of hq) (by have := hI.ranked hN _ _ _ hq hc; omega)
      obtain ⟨d, h1, h2⟩ := ih _ (by omega) c rfl
      exact ⟨d, .step hq ((GMap.contains_iff_mem_keys _).mpr hc) h1, h2⟩

theorem queued_heavier {W : World} (hR : Regular W U D) {s : OMP} (hI : OInv D s) {p c : Hash} {q : GMap Hash Unit}
    (hq : s.queued.get? p = some q) (hc : c ∈ q.keys) : W.weight p < W.weight c := by
  obtain ⟨b, hb, rfl, rfl⟩ := hI.que _ _ _ hq hc
  exact hR.heavier b hb

theorem waits_end {W : World} (hR : Regular W U D) {s : OMP} (hI : OInv D s) {p d : Hash} (h : Waits s.queued p d) :
    d = p ∨ (W.weight p < W.weight d ∧ ∃ p' q, s.queued.get? p' = some q ∧ d ∈ q.keys) := by
  induction h with
  | self => exact .inl rfl
  | @step h c d q h1 h2 _ ih =>
    have hm := (GMap.contains_iff_mem_keys _).mp h2
    have := queued_heavier hR hI h1 hm
    rcases ih with e | ⟨h3, h4⟩
    · subst e; exact .inr ⟨this, h, q, h1, hm⟩
    · exact .inr ⟨by omega, h4⟩

/-- The child chosen above a block at least as heavy as the head is held. -/
theorem chosen_pending {W : World} {V : List Hash} (hR : Regular W V D) {s : OMP} (hs : Safe W U D s) {p c : Hash} (hp : s.lastWeight ≤ W.weight p)
    (hg : s.getPendingChild o p = .ok (some c)) : ∃ b q, s.pending.get? c = some b ∧ D b ∧ b.hash = c ∧ b.parentHash = p ∧
      s.queued.get? p = some q ∧ c ∈ q.keys := by
  obtain ⟨q, M, hq, hM, hc⟩ := getPendingChild_best hg
  obtain ⟨d, h1, h2⟩ := leaf_exists hR.numbered hs.inv p
  have hd : W.weight p < W.weight d ∧ ∃ p' q, s.queued.get? p' = some q ∧ d ∈ q.keys := by
    rcases waits_end hR hs.inv h1 with e | h
    · rw [e, hq] at h2; simp at h2
    · exact h
  obtain ⟨hlt, p', q', h3, h4⟩ := hd
  have hpos : 0 < wt s.pending d := by
    unfold wt
    cases hpd : s.pending.get? d with
    | none => have := hs.gone _ _ _ h3 h4 hpd; omega
    | some b =>
      obtain ⟨e1, e2⟩ := hs.inv.pend _ _ hpd
      have := (hR.has b e2).weight
      simp only [Option.map_some, Option.getD_some]
      rw [this, e1]; omega
  have := hM d h1 h2
  rcases hc with ⟨h0, _⟩ | ⟨_, hm, _⟩
  · omega
  · have hw := queued_heavier hR hs.inv hq hm
    cases hpc : s.pending.get? c with
    | none => have := hs.gone _ _ _ hq hm hpc; omega
    | some b =>
      obtain ⟨e1, e2, e3, e4⟩ := hs.inv.child hR.hashed hq (.inl hm) hpc
      exact ⟨b, q, rfl, e3, e2, e1, hq, hm⟩

/-- Marking keeps safety, also when the head moves to a block that is not lighter. -/
theorem Safe.mark {W : World} {F : Hash → Prop} {s s' : OMP} {x : Hash} {w : Nat} (h : Safe W U D s)
    (hm : Mark U F { s with lastHash := x, lastWeight := w } s') (hw : w = W.weight x) (hle : s.lastWeight ≤ w) : Safe W U D s' := by
  have e1 : s'.pending = s.pending := hm.pending
  have e2 : s'.queued = s.queued := hm.queued
  refine ⟨h.inv.of_maps e1 e2, hm.room, hm.shrink.initEmpty.trans h.init, ?_, ?_⟩
  · rw [hm.shrink.lastWeight, hm.shrink.lastHash]; exact hw
  · rw [e1, e2, hm.shrink.lastWeight]
    intro p q c h1 h2 h3
    exact Nat.le_trans (h.gone p q c h1 h2 h3) hle

structure SafeStep (W : World) (U : List Hash) (D : PB → Prop) (s s' : OMP) : Prop where
  safe : Safe W U D s'
  le : s.lastWeight ≤ s'.lastWeight
  kept : ∀ x b, s.pending.get? x = some b → s'.pending.get? x = none → W.weight x ≤ s'.lastWeight

theorem emitLoop_safe {W : World} (hR : Regular W U D) (n : Nat) (s : OMP) (new : List PB) (hs : Safe W U D s)
    (hn : above W.number s.queued s.lastHash < n) :
    Out (fun _ => False) (fun r => Safe W U D r.1 ∧ s.lastWeight ≤ r.1.lastWeight ∧ r.1.pending = s.pending ∧ r.1.queued = s.queued)
      (OMP.emitLoop o n s new) := by
  induction n generalizing s new with
  | zero => omega
  | succ n ih =>
    unfold OMP.emitLoop
    obtain ⟨r, hr, _⟩ := (getPendingChild_total (o := o) s (hs.inv.ranked hR.numbered) s.lastHash).total
    rw [hr]
    show Out _ _ (match r with | none => _ | some hash => _)
    cases r with
    | none => exact ⟨hs, Nat.le_refl _, rfl, rfl⟩
    | some c =>
      obtain ⟨b, q, hb, hD, hbc, hpar, hq, hcq⟩ := chosen_pending hR hs (by rw [hs.weight]; exact Nat.le_refl _) hr
      simp only []
      rw [hb]
      simp only []
      have hbw := (hR.has b hD).weight
      have hlt := hR.heavier b hD
      unfold World.Heavier at hlt
      rw [hpar] at hlt
      refine (finishSiblings_mark hR.numbered hR.inU { s with tick := s.tick + 1 } b (hs.inv.of_maps rfl rfl) ⟨hs.room.1, hs.room.2, hs.room.3⟩).bind
        (fun s1 h1 => ?_)
      have h1 := (Mark.tick (F := Known D) hs.room (s.tick + 1)).trans h1
      have h2 := h1.head b.hash b.weight
      refine (finAdd_mark (o := o) { s1 with lastHash := b.hash, lastWeight := b.weight } h2.room (hR.inU b hD)).bind (fun s2 h3 => ?_)
      have h3 := h2.trans (h3.1.mono' (G := Known D) (fun x hx => ⟨b, hD, hx.symm⟩))
      have hs2 := hs.mark h3 hbw (by rw [hbw, hs.weight]; omega)
      have e2 : s2.queued = s.queued := h3.queued
      have e1 : s2.pending = s.pending := h3.pending
      have e3 : s2.lastHash = b.hash := h3.shrink.lastHash
      have e4 : s2.lastWeight = b.weight := h3.shrink.lastWeight
      have hlt' := above_child W.number (q := s.queued) (p := s.lastHash) (c := b.hash) (mem_keys_of hq) (by
        have := hs.inv.ranked hR.numbered _ _ _ hq hcq; rw [hbc]; omega)
      refine (ih s2 _ hs2 (by rw [e2, e3]; omega)).imp (fun r hr => ⟨hr.1, ?_, hr.2.2.1.trans e1, hr.2.2.2.trans e2⟩)
      have := hr.2.1
      rw [e4, hbw] at this
      rw [hs.weight]; omega

theorem prepareEmit_safe {W : World} (hR : Regular W U D) (s : OMP) (new old : List PB) (hs : Safe W U D s)
    {pre : List PB} {t : PB} (hnew : new = pre ++ [t]) (hD : D t) (hw : s.lastWeight ≤ t.weight) :
    Out (fun _ => False) (SafeStep W U D s) (s.prepareEmit o new old) := by
  unfold OMP.prepareEmit
  have htw := (hR.has t hD).weight
  refine Out.bind (P := fun s1 => Mark U (Known D) { s with lastHash := t.hash, lastWeight := t.weight } s1) ?_ (fun s1 h1 => ?_)
  · unfold OMP.emitStart
    have : new.getLast? = some t := by rw [hnew]; simp
    rw [this]
    simp only []
    refine (finishSiblings_mark hR.numbered hR.inU { s with lastHash := t.hash, lastWeight := t.weight } t (hs.inv.of_maps rfl rfl)
      ⟨hs.room.1, hs.room.2, hs.room.3⟩).bind (fun s1 h1 => ?_)
    exact (finAdd_mark (o := o) s1 h1.room (hR.inU t hD)).imp (fun s2 h3 => h1.trans (h3.1.mono' (fun x hx => ⟨t, hD, hx.symm⟩)))
  · have hs1 := hs.mark h1 htw hw
    have := above_size W.number s1.queued s1.lastHash
    refine (emitLoop_safe hR (s1.queued.size + 2) s1 new hs1 (by omega)).bind (fun r hr => ?_)
    obtain ⟨r1, r2, r3, r4⟩ := hr
    have e1 : s1.pending = s.pending := h1.pending
    have e4 : s1.lastWeight = t.weight := h1.shrink.lastWeight
    refine ⟨⟨r1.inv.of_maps rfl rfl, ⟨r1.room.1, r1.room.2, r1.room.3⟩, r1.init, r1.weight, r1.gone⟩, by simp only []; omega, ?_⟩
    intro x b hx hx'
    simp only [] at hx'
    rw [r3, e1, hx] at hx'
    simp at hx'

theorem Safe.queue {W : World} {s : OMP} (h : Safe W U D s) {pb : PB} (hD : D pb)
    (hk : s.pending.get? pb.hash = none → W.weight pb.hash ≤ s.lastWeight) : Safe W U D (s.queue pb) := by
  refine ⟨h.inv.queue hD, ⟨h.room.1, h.room.2, h.room.3⟩, h.init, h.weight, ?_⟩
  intro p q c hq hc hp
  simp only [OMP.queue, GMap.get?_insert] at hq hp
  split at hq
  · simp only [Option.some.injEq] at hq
    subst hq
    rcases mem_keys_insert.mp hc with e | hc
    · subst e; exact hk hp
    · cases hg : s.queued.get? pb.parentHash with
      | none => rw [hg] at hc; simp [GMap.keys, GMap.empty] at hc
      | some q0 => rw [hg] at hc; exact h.gone _ _ _ hg hc hp
  · exact h.gone _ _ _ hq hc hp

theorem handleAux_safe {W : World} (hR : Regular W U D) (n : Nat) (s : OMP) (pb : PB) (reorg : Bool) (hs : Safe W U D s)
    (hD : D pb) (hn : above W.number s.queued pb.hash < n) :
    Out (fun _ => False) (SafeStep W U D s) (OMP.handleAux o n s pb reorg) := by
  induction n generalizing s pb reorg with
  | zero => omega
  | succ n ih =>
    unfold OMP.handleAux
    have hpw := (hR.has pb hD).weight
    split
    · exact ⟨⟨hs.inv.of_maps rfl rfl, ⟨hs.room.1, hs.room.2, hs.room.3⟩, hs.init, hs.weight, hs.gone⟩, Nat.le_refl _,
        fun x b h1 h2 => by simp only [] at h2; rw [h1] at h2; simp at h2⟩
    · have hs1 : Safe W U D { s with pending := s.pending.insert pb.hash pb } := by
        refine ⟨hs.inv.insert hD, ⟨hs.room.1, hs.room.2, hs.room.3⟩, hs.init, hs.weight, ?_⟩
        intro p q c h1 h2 h3
        simp only [GMap.get?_insert] at h3
        split at h3
        · simp at h3
        · exact hs.gone p q c h1 h2 h3
      have hp1 : ({ s with pending := s.pending.insert pb.hash pb } : OMP).pending.get? pb.hash = some pb := by simp
      have lift : ∀ s', SafeStep W U D { s with pending := s.pending.insert pb.hash pb } s' → SafeStep W U D s s' := by
        intro s' h
        refine ⟨h.safe, h.le, ?_⟩
        intro x b hx hx'
        by_cases e : pb.hash = x
        · exact h.kept x pb (by simp [GMap.get?_insert, e]) hx'
        · exact h.kept x b (by simp only [GMap.get?_insert, if_neg e]; exact hx) hx'
      refine Out.imp (P := SafeStep W U D { s with pending := s.pending.insert pb.hash pb }) ?_ lift
      have hn1 : above W.number ({ s with pending := s.pending.insert pb.hash pb } : OMP).queued pb.hash < n + 1 := hn
      clear hs hn lift
      generalize ({ s with pending := s.pending.insert pb.hash pb } : OMP) = s1 at *
      have refl : SafeStep W U D s1 s1 :=
        ⟨hs1, Nat.le_refl _, fun x b h1 h2 => by rw [h1] at h2; simp at h2⟩
      have queue1 : ∀ (s2 : OMP), SafeStep W U D s1 s2 → SafeStep W U D s1 (s2.queue pb) := by
        intro s2 h
        exact ⟨h.safe.queue hD (h.kept _ _ hp1), h.le, h.kept⟩
      have mark1 : ∀ (F : Hash → Prop) (s2 : OMP), Mark U F s1 s2 → SafeStep W U D s1 s2 := by
        intro F s2 h
        refine ⟨hs1.mark (x := s1.lastHash) (w := s1.lastWeight) h hs1.weight (Nat.le_refl _), by rw [h.shrink.lastWeight]; exact Nat.le_refl _, ?_⟩
        intro x b h1 h2
        rw [h.pending, h1] at h2; simp at h2
      unfold OMP.accept
      split
      · exact refl
      · split
        · rename_i hpar
          refine prepareEmit_safe hR s1 [pb] [] hs1 (pre := []) rfl hD ?_
          have := hR.heavier pb hD
          unfold World.Heavier at this
          rw [hpar] at this
          rw [hpw, hs1.weight]; omega
        · rw [hs1.init]
          simp only [Bool.false_and, Bool.false_eq_true, if_false]
          split
          · unfold OMP.onConnected
            split
            · rename_i lastBlock hlast hdec
              have hlt : s1.lastWeight < pb.weight := by simpa using hdec
              refine (prepareReorg_spec hs1.inv.pendKeys (fun h b hb => (hs1.inv.pend h b hb).2) hR.numbered pb lastBlock hD).bind (fun r hr => ?_)
              split
              · rename_i removed added
                obtain ⟨p, hk⟩ := hr.1 _ _ rfl
                obtain ⟨pre, hpre⟩ := hk.last
                exact prepareEmit_safe hR s1 added removed hs1 hpre hD (by omega)
              · rename_i last
                rw [hr.2 _ rfl]
                exact queue1 s1 refl
              · exact refl
            · refine (finAdd_mark (o := o) s1 hs1.room (hR.inU pb hD)).bind (fun s2 h2 => ?_)
              have h2 := h2.1
              have st2 := mark1 _ s2 h2
              obtain ⟨c?, hc, _⟩ := (getPendingChild_total (o := o) s2 (st2.safe.inv.ranked hR.numbered) pb.hash).total
              rw [hc]
              show Out _ _ (match c? with | none => _ | some child => _)
              have hspec := (getPendingChild_out (o := o) s2 pb.hash).ok hc
              cases c? with
              | none => exact queue1 s2 st2
              | some c =>
                simp only []
                split
                · exact queue1 _ (mark1 _ _ (h2.trans (Mark.tick h2.room (s2.tick + 1))))
                · rename_i cb hcb
                  obtain ⟨q, hq, hcq⟩ := hspec
                  obtain ⟨e1, e2, e3, e4⟩ := st2.safe.inv.child hR.hashed hq hcq hcb
                  have hlt' := above_child W.number (q := s2.queued) (p := pb.hash) (c := cb.hash) (mem_keys_of hq) (by
                    have := st2.safe.inv.ranked hR.numbered _ _ _ hq e4; rw [e2]; omega)
                  have eq2 : s2.queued = s1.queued := h2.queued
                  have st3 := mark1 _ _ (h2.trans (Mark.tick h2.room (s2.tick + 1)))
                  refine (ih { s2 with tick := s2.tick + 1 } cb true st3.safe e3
                    (by simp only []; rw [← eq2] at hn1; omega)).bind (fun s4 h4 => queue1 s4 ?_)
                  refine ⟨h4.safe, Nat.le_trans st3.le h4.le, ?_⟩
                  intro x b hx hx'
                  exact h4.kept x b (by simp only []; rw [h2.pending]; exact hx) hx'
          · unfold OMP.onUnconnected
            split
            · rename_i hlt
              split
              · have hw : W.weight pb.hash ≤ s1.lastWeight := by omega
                refine ⟨⟨hs1.inv.erase _, ⟨hs1.room.1, hs1.room.2, hs1.room.3⟩, hs1.init, hs1.weight, ?_⟩, Nat.le_refl _, ?_⟩
                · intro p q c h1 h2 h3
                  simp only [GMap.get?_erase] at h3
                  split at h3
                  · rename_i e; rw [← e]; exact hw
                  · exact hs1.gone p q c h1 h2 h3
                · intro x b h1 h3
                  simp only [GMap.get?_erase] at h3
                  split at h3
                  · rename_i e; rw [← e]; exact hw
                  · rw [h1] at h3; simp at h3
              · refine (finAdd_mark (o := o) s1 hs1.room (hR.inU pb hD)).bind (fun s2 h2 => ?_)
                exact queue1 s2 (mark1 _ s2 h2.1)
            · exact queue1 s1 refl

/-- Histories that fit the window never fail. -/
theorem run_safe {W : World} (hR : Regular W U D) {bs : List PB} (hD : ∀ b ∈ bs, D b) : ∀ {s : OMP}, Safe W U D s →
    Out (fun _ => False) (Safe W U D) (s.run o (bs.map OOp.block)) := by
  induction bs with
  | nil => intro s h; exact h
  | cons b bs ih =>
    intro s h
    unfold OMP.run
    rw [List.map_cons, List.foldlM_cons]
    have := above_size W.number s.queued b.hash
    exact (handleAux_safe hR (s.queued.size + 2) s b false h (hD b (by simp)) (by omega)).bind
      (fun s' h' => ih (fun x hx => hD x (by simp [hx])) h'.safe)

/-- The first state fits. -/
theorem newOMP_room {cfg : Config} {s : OMP} (hn : newOMP cfg = .ok s) (hU : (U.length : Int) ≤ 2 * cfg.reorgThreshold)
    (hl : cfg.lastHash ∈ U) : Room U s ∧ s.finished.items = [cfg.lastHash] ∧ s.pending = GMap.empty ∧ s.queued = GMap.empty := by
  unfold newOMP at hn
  split at hn
  · simp at hn
  · rename_i hc
    simp only [Except.ok.injEq] at hn
    subst hn
    have hadd : ((LRU.new (K := Hash) (2 * cfg.reorgThreshold).toNat).add cfg.lastHash).1.items = [cfg.lastHash] := by
      unfold LRU.add LRU.new
      simp only [List.not_mem_nil, if_false, List.length_nil]
      rw [if_pos (by omega)]
    refine ⟨⟨by simp only [hadd]; simp, by simp only [hadd]; simpa using hl, ?_⟩, hadd, rfl, rfl⟩
    simp only [LRU.add_cap, LRU.new]; omega

theorem newOMP_safe {W : World} {cfg : Config} {s : OMP} (hn : newOMP cfg = .ok s) (h0 : cfg.lastHash ≠ Hash.zero)
    (hw : cfg.lastWeight = W.weight cfg.lastHash) (hU : (U.length : Int) ≤ 2 * cfg.reorgThreshold)
    (hl : cfg.lastHash ∈ U) : Safe W U D s := by
  obtain ⟨i1, i2, i3, _, _, i6, _⟩ := newOMP_inv (D := D) hn
  obtain ⟨r1, _, _, r4⟩ := newOMP_room hn hU hl
  refine ⟨i1, r1, by simp [i6, h0], by rw [i3, i2, hw], ?_⟩
  intro p q c hq
  rw [r4] at hq
  simp [GMap.get?, GMap.empty, GMap.look] at hq

end Verif
