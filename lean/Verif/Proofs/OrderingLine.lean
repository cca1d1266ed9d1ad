import Verif.Proofs.OrderingParents
/-! Delivery of a single chain in any order. -/
namespace Verif
open Spec

variable {D : PB → Prop} {o : MapOrder} {U : List Hash} {W : World}

theorem finishSiblings_only (s : OMP) (pb : PB) (h : ∀ q, s.queued.get? pb.parentHash = some q → ∀ c ∈ q.keys, c = pb.hash) :
    ∃ n, s.finishSiblings o pb = .ok { s with tick := n } := by
  unfold OMP.finishSiblings
  split
  · exact ⟨s.tick, rfl⟩
  · rename_i q hq
    refine ⟨s.tick + 1, ?_⟩
    have : ∀ l : List Hash, (∀ c ∈ l, c = pb.hash) → ∀ a : OMP,
        l.foldlM (fun s h => if h ≠ pb.hash then s.finishPendingChildren o h else .ok s) a = .ok a := by
      intro l
      induction l with
      | nil => intro _ a; rfl
      | cons x l ih =>
        intro hl a
        rw [List.foldlM_cons, if_neg (by simpa using hl x (by simp))]
        exact ih (fun c hc => hl c (by simp [hc])) a
    exact this _ (fun c hc => h q hq c (mem_ord.mp hc)) _

/-- Where a block of the chain is. -/
theorem Spec.ChainOn.find {root : Hash} {chain : List PB} (h : Spec.ChainOn W root chain) {b : PB} (hb : W.Has b) (hm : b.hash ∈ hashes chain) :
    ∃ a y c, chain = a ++ y :: c ∧ y.hash = b.hash ∧ b.parentHash = endOf root a ∧ W.number b.parentHash = W.number root + a.length := by
  obtain ⟨y, hy, e⟩ := List.mem_map.mp hm
  obtain ⟨a, c, rfl⟩ := List.append_of_mem hy
  have hp : b.parentHash = y.parentHash := by rw [hb.parent, (h.has y hy).parent, e]
  have hl := linked_append.mp h.linked
  refine ⟨a, y, c, rfl, e, hp.trans hl.2.1, ?_⟩
  rw [hp, hl.2.1]
  exact number_endOf hl.1 (fun x hx => h.numbered x (by simp [hx]))

theorem chain_low {root : Hash} {em : List PB} (hl : Linked root em) (hN : ∀ b ∈ em, W.Numbered b) {x : Hash}
    (hx : x = root ∨ x ∈ hashes em) : W.number x ≤ W.number root + em.length := by
  rcases hx with rfl | hx
  · omega
  · obtain ⟨y, hy, rfl⟩ := List.mem_map.mp hx
    obtain ⟨a, c, rfl⟩ := List.append_of_mem hy
    have e : a ++ y :: c = (a ++ [y]) ++ c := by simp
    have h1 : Linked root (a ++ [y]) := by rw [e] at hl; exact (linked_append.mp hl).1
    have := number_endOf (W := W) h1 (fun x hx => hN x (by
      rcases List.mem_append.mp hx with h | h
      · simp [h]
      · simp [List.mem_singleton.mp h]))
    rw [endOf_append] at this
    simp only [endOf, List.length_append, List.length_cons, List.length_nil] at this ⊢
    omega

/-- The state while the chain `em ++ rest` has been emitted up to `em`. -/
structure OnLine (W : World) (U : List Hash) (D : PB → Prop) (wl : GMap Nat Hash) (root : Hash) (em : List PB) (s : OMP) : Prop where
  inv : OInv D s
  room : Room U s
  init : s.initEmpty = false
  wl : s.whitelist = wl
  bl : ∀ h, s.blacklist.contains h = false
  last : s.lastHash = endOf root em
  weight : s.lastWeight = W.weight s.lastHash
  fin : ∀ x, x ∈ s.finished.items ↔ x = root ∨ x ∈ hashes em
  pend : ∀ b, D b → ∃ b', s.pending.get? b.hash = some b'

theorem OnLine.safe {wl : GMap Nat Hash} {root : Hash} {em : List PB} {s : OMP} (h : OnLine W U D wl root em s) : Safe W U D s := by
  refine ⟨h.inv, h.room, h.init, h.weight, ?_⟩
  intro p q c hq hc hp
  obtain ⟨b, hb, rfl, _⟩ := h.inv.que _ _ _ hq hc
  obtain ⟨b', e⟩ := h.pend b hb
  rw [e] at hp; simp at hp

/-- Emitting the next block. -/
theorem OnLine.next {wl : GMap Nat Hash} {root : Hash} {em : List PB} {s s' : OMP} {t x : PB} (h : OnLine W U D wl root em s)
    (hm : Mark U (· = t.hash) { s with lastHash := t.hash, lastWeight := t.weight } s') (hf : t.hash ∈ s'.finished.items)
    (hw : t.weight = W.weight t.hash) (hx : x.hash = t.hash) : OnLine W U D wl root (em ++ [x]) s' := by
  refine ⟨h.inv.of_maps hm.pending hm.queued, hm.room, hm.shrink.initEmpty.trans h.init, hm.shrink.whitelist.trans h.wl,
    fun y => by rw [hm.shrink.blacklist]; exact h.bl y, ?_, ?_, ?_, ?_⟩
  · rw [hm.shrink.lastHash, endOf_append]; exact hx.symm
  · rw [hm.shrink.lastHash, hm.shrink.lastWeight]; exact hw
  · intro y
    rw [hashes_append, List.mem_append]
    have e : y ∈ hashes [x] ↔ y = t.hash := by simp [hashes, hx]
    rw [e]
    constructor
    · intro hy
      rcases hm.shrink.finished y hy with h1 | h1
      · rcases (h.fin y).mp h1 with h2 | h2
        · exact .inl h2
        · exact .inr (.inl h2)
      · exact .inr (.inr h1)
    · rintro (h1 | h1 | h1)
      · exact hm.mono y ((h.fin y).mpr (.inl h1))
      · exact hm.mono y ((h.fin y).mpr (.inr h1))
      · exact h1 ▸ hf
  · intro b hb
    rw [hm.pending]; exact h.pend b hb

theorem next_of {root : Hash} {em rest : List PB} (hc : Spec.ChainOn W root (em ++ rest)) (hD : ∀ b, D b → W.Has b ∧ b.hash ∈ hashes (em ++ rest))
    {b : PB} (hb : D b) (hp : b.parentHash = endOf root em) : ∃ x rest', rest = x :: rest' ∧ x.hash = b.hash := by
  obtain ⟨a, y, c, e1, e2, _, e4⟩ := hc.find (hD b hb).1 (hD b hb).2
  have h2 := number_endOf (linked_append.mp hc.linked).1 (fun x hx => hc.numbered x (by simp [hx]))
  rw [hp] at e4
  have hlen : em.length = a.length := by omega
  obtain ⟨_, h4⟩ := List.append_inj e1 hlen
  exact ⟨y, c, h4, e2⟩

theorem emitLoop_line {wl : GMap Nat Hash} {root : Hash} (hR : Regular W U D) (n : Nat) (s : OMP) (new em rest : List PB)
    (hc : Spec.ChainOn W root (em ++ rest)) (hD : ∀ b, D b → W.Has b ∧ b.hash ∈ hashes (em ++ rest))
    (hs : OnLine W U D wl root em s) (hn : above W.number s.queued s.lastHash < n) :
    Out (fun _ => False) (fun r => ∃ ext rest' exb, rest = ext ++ rest' ∧ r.2 = new ++ exb ∧ hashes exb = hashes ext ∧
      OnLine W U D wl root (em ++ ext) r.1 ∧ r.1.queued = s.queued ∧ r.1.queued.get? r.1.lastHash = none ∧ r.1.log = s.log)
      (OMP.emitLoop o n s new) := by
  induction n generalizing s new em rest with
  | zero => omega
  | succ n ih =>
    unfold OMP.emitLoop
    obtain ⟨r, hr, _⟩ := (getPendingChild_total (o := o) s (hs.inv.ranked hR.numbered) s.lastHash).total
    rw [hr]
    show Out _ _ (match r with | none => _ | some hash => _)
    cases r with
    | none => exact ⟨[], rest, [], by simp, by simp, rfl, by simpa using hs, rfl, getPendingChild_none hr, rfl⟩
    | some c =>
      obtain ⟨b, q, hb, hbD, hbc, hpar, hq, hcq⟩ := chosen_pending hR hs.safe (by rw [hs.weight]; exact Nat.le_refl _) hr
      simp only []
      rw [hb]
      simp only []
      obtain ⟨x, rest', rfl, hx⟩ := next_of hc hD hbD (hpar.trans hs.last)
      obtain ⟨k, hk⟩ := finishSiblings_only (o := o) { s with tick := s.tick + 1 } b (by
        intro q' hq' c' hc'
        simp only [] at hq'
        obtain ⟨b', hb', e1, e2⟩ := hs.inv.que _ _ _ hq' hc'
        obtain ⟨x', r', e3, e4⟩ := next_of hc hD hb' (e2.trans (hpar.trans hs.last))
        simp only [List.cons.injEq] at e3
        rw [← e1, ← e4, ← e3.1, hx])
      rw [hk]
      have hbw := (hR.has b hbD).weight
      have hm0 : Room U ({ s with tick := k, lastHash := b.hash, lastWeight := b.weight } : OMP) := ⟨hs.room.1, hs.room.2, hs.room.3⟩
      refine (finAdd_mark (o := o) { s with tick := k, lastHash := b.hash, lastWeight := b.weight } hm0 (hR.inU b hbD)).bind (fun s2 h3 => ?_)
      have hm : Mark U (· = b.hash) { s with lastHash := b.hash, lastWeight := b.weight } s2 :=
        (Mark.tick (F := (· = b.hash)) (s := { s with lastHash := b.hash, lastWeight := b.weight }) ⟨hs.room.1, hs.room.2, hs.room.3⟩ k).trans h3.1
      have hs2 := hs.next hm h3.2 hbw hx
      have e2 : s2.queued = s.queued := hm.queued
      have e3 : s2.lastHash = b.hash := hm.shrink.lastHash
      have hlt' := above_child W.number (q := s.queued) (p := s.lastHash) (c := b.hash) (mem_keys_of hq) (by
        have := hs.inv.ranked hR.numbered _ _ _ hq hcq; rw [hbc]; omega)
      have ea : em ++ x :: rest' = (em ++ [x]) ++ rest' := by simp
      rw [ea] at hc hD
      refine (ih s2 (new ++ [b]) (em ++ [x]) rest' hc hD hs2 (by rw [e2, e3]; omega)).imp ?_
      rintro r ⟨ext, r', exb, g1, g2, g3, g4, g5, g6, g7⟩
      refine ⟨x :: ext, r', b :: exb, by rw [g1]; rfl, by rw [g2]; simp, ?_, by simpa using g4, g5.trans e2, g6, g7.trans hm.log⟩
      simp only [hashes, List.map_cons] at g3 ⊢
      rw [g3, hx]

/-- The invariant of a whole delivery. -/
structure Lined (W : World) (U : List Hash) (wl : GMap Nat Hash) (root : Hash) (chain pre em rest : List PB) (s : OMP) : Prop where
  split : chain = em ++ rest
  line : OnLine W U (· ∈ pre) wl root em s
  wait : ∀ b ∈ pre, b.hash ∉ hashes em → ∃ q, s.queued.get? b.parentHash = some q ∧ b.hash ∈ q.keys
  tip : s.queued.get? s.lastHash = none
  noRemoved : ∀ x ∈ s.log, ∃ a, x = .update a []
  added : addedHashes s.log = hashes em

theorem line_step {wl : GMap Nat Hash} {root : Hash} {chain pre em rest : List PB} {pb : PB} {s : OMP} (hc : Spec.ChainOn W root chain)
    (hR : Regular W U (· ∈ pre ++ [pb])) (hD : ∀ b ∈ pre ++ [pb], b.hash ∈ hashes chain) (hs : Lined W U wl root chain pre em rest s)
    (hF : ¬ Forbidden wl pb) :
    Out (fun _ => False) (fun s' => ∃ em' rest', Lined W U wl root chain (pre ++ [pb]) em' rest' s') (s.handle o pb) := by
  have hpbD : pb ∈ pre ++ [pb] := by simp
  have sub : ∀ b, b ∈ pre → b ∈ pre ++ [pb] := fun b hb => by simp [hb]
  obtain ⟨rfl, hl, hwait, htip, hnr, hadd⟩ := hs
  have hD' : ∀ b, b ∈ pre ++ [pb] → W.Has b ∧ b.hash ∈ hashes (em ++ rest) := fun b hb => ⟨hR.has b hb, hD b hb⟩
  unfold OMP.handle OMP.handleAux
  have hex : s.excludes pb = false := by
    cases he : s.excludes pb with
    | false => rfl
    | true =>
      rcases (excludes_iff s pb).mp he with h | h
      · rw [hl.wl] at h; exact (hF h).elim
      · rw [hl.bl] at h; simp at h
  rw [hex]
  simp only [Bool.false_eq_true, if_false]
  have hl1 : OnLine W U (· ∈ pre ++ [pb]) wl root em { s with pending := s.pending.insert pb.hash pb } := by
    refine ⟨(hl.inv.mono sub).insert hpbD, ⟨hl.room.1, hl.room.2, hl.room.3⟩, hl.init, hl.wl, hl.bl, hl.last, hl.weight, hl.fin, ?_⟩
    intro b hb
    simp only [GMap.get?_insert]
    split
    · exact ⟨_, rfl⟩
    · rename_i hne
      rcases List.mem_append.mp hb with hb | hb
      · exact hl.pend b hb
      · exact (hne (by rw [List.mem_singleton.mp hb])).elim
  have hpw := (hR.has pb hpbD).weight
  have hcl := linked_append.mp hc.linked
  have hnum := number_endOf (W := W) hcl.1 (fun x hx => hc.numbered x (by simp [hx]))
  unfold OMP.accept
  split
  · rename_i hfin
    have hfin : pb.hash ∈ s.finished.items := by simpa [LRU.contains] using hfin
    refine ⟨em, rest, rfl, hl1, ?_, htip, hnr, hadd⟩
    intro b hb hne
    rcases List.mem_append.mp hb with hb | hb
    · exact hwait b hb hne
    · rw [List.mem_singleton.mp hb] at hne ⊢
      rcases (hl.fin _).mp hfin with e | e
      · -- the root is not in the chain
        exfalso
        have := linked_nodup (W := W) hc.linked hc.numbered
        rw [List.nodup_cons] at this
        exact this.1.1 (e ▸ hD pb hpbD)
      · exact (hne e).elim
  · rename_i hfin
    have hnew : pb.hash ∉ s.finished.items := by simpa [LRU.contains] using hfin
    have hne : pb.hash ∉ hashes em := fun h => hnew ((hl.fin _).mpr (.inr h))
    split
    · rename_i hlast
      simp only [] at hlast
      obtain ⟨x, rest', rfl, hx⟩ := next_of hc hD' hpbD (hlast.trans hl.last)
      unfold OMP.prepareEmit
      have hstart : ∃ k, OMP.emitStart o { s with pending := s.pending.insert pb.hash pb } [pb] =
          OMP.finAdd o { s with pending := s.pending.insert pb.hash pb, lastHash := pb.hash, lastWeight := pb.weight, tick := k } pb.hash := by
        unfold OMP.emitStart
        simp only [List.getLast?_singleton]
        obtain ⟨k, hk⟩ := finishSiblings_only (o := o)
          { s with pending := s.pending.insert pb.hash pb, lastHash := pb.hash, lastWeight := pb.weight } pb (by
            intro q hq
            simp only [] at hq
            rw [hlast, htip] at hq; simp at hq)
        refine ⟨k, ?_⟩
        rw [hk]; rfl
      obtain ⟨k, hk⟩ := hstart
      rw [hk]
      have r0 : Room U ({ s with pending := s.pending.insert pb.hash pb, lastHash := pb.hash, lastWeight := pb.weight } : OMP) :=
        ⟨hl.room.1, hl.room.2, hl.room.3⟩
      refine (finAdd_mark (o := o) { s with pending := s.pending.insert pb.hash pb, lastHash := pb.hash, lastWeight := pb.weight, tick := k }
        ⟨hl.room.1, hl.room.2, hl.room.3⟩ (hR.inU pb hpbD)).bind (fun s1 h1 => ?_)
      have hm := (Mark.tick (F := (· = pb.hash)) r0 k).trans h1.1
      have hs1 := hl1.next hm h1.2 hpw hx
      have ea : em ++ x :: rest' = (em ++ [x]) ++ rest' := by simp
      rw [ea] at hc hD'
      have := above_size W.number s1.queued s1.lastHash
      refine (emitLoop_line hR (s1.queued.size + 2) s1 [pb] (em ++ [x]) rest' hc hD' hs1 (by omega)).bind ?_
      rintro r ⟨ext, r', exb, g1, g2, g3, g4, g5, g6, g7⟩
      refine ⟨em ++ [x] ++ ext, r', by rw [g1]; simp, ⟨g4.1.of_maps rfl rfl, ⟨g4.2.1, g4.2.2, g4.2.3⟩, g4.3, g4.4, g4.5, g4.6, g4.7, g4.8, g4.9⟩,
        ?_, g6, ?_, ?_⟩
      · intro b hb hne'
        have hne2 : b.hash ∉ hashes em := by
          intro h; exact hne' (by simp only [hashes_append, List.mem_append]; exact .inl (.inl h))
        have hbp : b ∈ pre := by
          rcases List.mem_append.mp hb with hb | hb
          · exact hb
          · exfalso; apply hne'
            rw [List.mem_singleton.mp hb, ← hx]; simp [hashes]
        obtain ⟨q, hq1, hq2⟩ := hwait b hbp hne2
        have e2 : s1.queued = s.queued := hm.queued
        exact ⟨q, by simp only []; rw [g5, e2]; exact hq1, hq2⟩
      · have e3 : s1.log = s.log := hm.log
        intro y hy
        simp only [] at hy
        rw [g7, e3] at hy
        rcases List.mem_append.mp hy with hy | hy
        · exact hnr y hy
        · exact ⟨_, List.mem_singleton.mp hy⟩
      · have e3 : s1.log = s.log := hm.log
        simp only []
        rw [g7, e3, g2]
        unfold addedHashes at hadd ⊢
        rw [List.flatMap_append, hashes_append, hadd, hashes_append, hashes_append]
        simp only [List.flatMap_cons, List.flatMap_nil, addedBy, List.append_nil, List.append_assoc]
        rw [hashes_append, g3]
        simp [hashes, hx]
    · rename_i hnl
      simp only [] at hnl
      rw [if_neg (by simp [hl.init])]
      obtain ⟨a, y, c, e1, e2, e3, e4⟩ := hc.find (hR.has pb hpbD) (hD pb hpbD)
      have hlen : em.length < a.length := by
        rcases Nat.lt_trichotomy em.length a.length with h | h | h
        · exact h
        · exfalso
          obtain ⟨h5, _⟩ := List.append_inj e1 h
          exact hnl (by rw [e3, ← h5, hl.last])
        · exfalso
          -- the block would be in `em`
          apply hne
          have : y ∈ em := by
            have hy : (em ++ rest)[a.length]? = some y := by rw [e1]; simp
            rw [List.getElem?_append_left h] at hy
            exact List.mem_of_getElem? hy
          rw [← e2]; exact mem_hashes this
      have hnf : s.finished.contains pb.parentHash = false := by
        simp only [LRU.contains, decide_eq_false_iff_not]
        intro h
        have := chain_low hcl.1 (fun x hx => hc.numbered x (by simp [hx])) ((hl.fin _).mp h)
        omega
      rw [hnf]
      simp only [Bool.false_eq_true, if_false]
      have hheavy : ¬ pb.weight < s.lastWeight := by
        have hyr : y ∈ rest := by
          have hy : (em ++ rest)[a.length]? = some y := by rw [e1]; simp
          rw [List.getElem?_append_right (by omega)] at hy
          exact List.mem_of_getElem? hy
        obtain ⟨r1, r2, rfl⟩ := List.append_of_mem hyr
        have e : r1 ++ y :: r2 = (r1 ++ [y]) ++ r2 := by simp
        have hlk := hcl.2
        rw [e] at hlk
        have := (weight_endOf (W := W) (linked_append.mp hlk).1 (fun x hx => hc.heavier x (by
          rcases List.mem_append.mp hx with h | h
          · simp [h]
          · simp [List.mem_singleton.mp h]))).1
        rw [endOf_append] at this
        simp only [endOf] at this
        rw [hpw, hl.weight, hl.last, ← e2]; omega
      unfold OMP.onUnconnected
      rw [if_neg hheavy]
      refine ⟨em, rest, rfl, ?_, ?_, ?_, hnr, hadd⟩
      · exact ⟨hl1.inv.queue hpbD, ⟨hl.room.1, hl.room.2, hl.room.3⟩, hl.init, hl.wl, hl.bl, hl.last, hl.weight, hl.fin, hl1.pend⟩
      · intro b hb hne'
        simp only [OMP.queue, GMap.get?_insert]
        split
        · rename_i e
          refine ⟨_, rfl, ?_⟩
          rw [mem_keys_insert]
          by_cases hbe : b.hash = pb.hash
          · exact .inl hbe
          · rcases List.mem_append.mp hb with hb | hb
            · obtain ⟨q, hq1, hq2⟩ := hwait b hb hne'
              rw [e, hq1]; exact .inr hq2
            · exact (hbe (by rw [List.mem_singleton.mp hb])).elim
        · rename_i e
          rcases List.mem_append.mp hb with hb | hb
          · exact hwait b hb hne'
          · exact (e (by rw [List.mem_singleton.mp hb])).elim
      · simp only [OMP.queue, GMap.get?_insert]
        rw [if_neg hnl]
        exact htip

theorem line_run {wl : GMap Nat Hash} {root : Hash} {chain post : List PB} (hc : Spec.ChainOn W root chain) :
    ∀ {pre em rest : List PB} {s : OMP}, Regular W U (· ∈ pre ++ post) → (∀ b ∈ pre ++ post, b.hash ∈ hashes chain) →
    Lined W U wl root chain pre em rest s → (∀ b ∈ post, ¬ Forbidden wl b) →
    Out (fun _ => False) (fun s' => ∃ em' rest', Lined W U wl root chain (pre ++ post) em' rest' s') (s.run o (post.map OOp.block)) := by
  induction post with
  | nil => intro pre em rest s _ _ h _; rw [List.append_nil]; exact ⟨em, rest, h⟩
  | cons b post ih =>
    intro pre em rest s hR hD hs hF
    unfold OMP.run
    rw [List.map_cons, List.foldlM_cons]
    have sub : ∀ x, x ∈ pre ++ [b] → x ∈ pre ++ b :: post := fun x hx => by
      rcases List.mem_append.mp hx with h | h
      · simp [h]
      · simp [List.mem_singleton.mp h]
    refine (line_step hc (hR.mono sub) (fun x hx => hD x (sub x hx)) hs (hF b (by simp))).bind ?_
    rintro s' ⟨em', rest', h'⟩
    have := ih (pre := pre ++ [b]) (s := s') (hR.mono (fun x hx => by simpa using hx)) (fun x hx => hD x (by simpa using hx)) h'
      (fun x hx => hF x (by simp [hx]))
    rw [List.append_assoc] at this
    exact this

end Verif
