import Verif.Proofs.OrderingParents
/-! Parents-first delivery to an ordering layer that was started from a stored block, beginning below that block. -/
namespace Verif
open Spec

variable {D : PB → Prop} {o : MapOrder} {U : List Hash} {W : World}

/-- The state while older blocks are delivered, parents first from `root`; `last` is the stored block. -/
structure PO (W : World) (U : List Hash) (wl : GMap Nat Hash) (last : Hash) (pre : List PB) (s : OMP) : Prop where
  inv : OInv (· ∈ pre) s
  room : Room U s
  init : s.initEmpty = false
  wl : s.whitelist = wl
  bl : ∀ h, s.blacklist.contains h = false
  pend : ∀ b ∈ pre, ∃ b', s.pending.get? b.hash = some b'
  fin : ∀ b ∈ pre, b.hash ∈ s.finished.items
  lastFin : last ∈ s.finished.items
  finOnly : ∀ x ∈ s.finished.items, x = last ∨ x ∈ hashes pre
  weight : s.lastWeight = W.weight last
  head : s.lastHash = last
  log : s.log = []

theorem po_step {wl : GMap Nat Hash} {root last : Hash} {pre : List PB} {pb : PB} {s : OMP} (hR : Regular W U (· ∈ pre ++ [pb]))
    (hL : PFList W root pre) (hs : PO W U wl last pre s) (hF : ¬ Forbidden wl pb)
    (hpf : pb.hash = root ∨ ∃ a ∈ pre, a.hash = pb.parentHash) (hlight : pb.hash = last ∨ pb.weight < W.weight last) :
    Out (fun _ => False) (PO W U wl last (pre ++ [pb])) (s.handle o pb) := by
  have hpbD : pb ∈ pre ++ [pb] := by simp
  have sub : ∀ b, b ∈ pre → b ∈ pre ++ [pb] := fun b hb => by simp [hb]
  unfold OMP.handle OMP.handleAux
  have hex : s.excludes pb = false := by
    unfold OMP.excludes
    rw [hs.bl, hs.wl, Bool.or_false]
    cases hg : wl.get? (toUint64 pb.number) with
    | none => rfl
    | some h =>
      simp only [ne_eq, decide_not, Bool.not_eq_eq_eq_not, Bool.not_false, decide_eq_true_eq]
      refine Classical.byContradiction fun hc => ?_
      exact hF ⟨h, hg, hc⟩
  rw [hex]
  simp only [Bool.false_eq_true, if_false]
  have hI1 : OInv (· ∈ pre ++ [pb]) { s with pending := s.pending.insert pb.hash pb } := (hs.inv.mono sub).insert hpbD
  have hpend1 : ∀ b ∈ pre ++ [pb], ∃ b', (s.pending.insert pb.hash pb).get? b.hash = some b' := by
    intro b hb
    rw [GMap.get?_insert]
    split
    · exact ⟨_, rfl⟩
    · rename_i hne
      rcases List.mem_append.mp hb with hb | hb
      · exact hs.pend b hb
      · exact (hne (by rw [List.mem_singleton.mp hb])).elim
  have hroom1 : Room U { s with pending := s.pending.insert pb.hash pb } := ⟨hs.room.1, hs.room.2, hs.room.3⟩
  unfold OMP.accept
  split
  · rename_i hfin
    have hfin : pb.hash ∈ s.finished.items := by simpa [LRU.contains] using hfin
    refine ⟨hI1, hroom1, hs.init, hs.wl, hs.bl, hpend1, ?_, hs.lastFin, ?_, hs.weight, hs.head, hs.log⟩
    · intro b hb
      rcases List.mem_append.mp hb with hb | hb
      · exact hs.fin b hb
      · rw [List.mem_singleton.mp hb]; exact hfin
    · intro x hx
      rw [hashes_append]
      exact (hs.finOnly x hx).imp id (fun h => by simp [h])
  · rename_i hfin
    have hnew : pb.hash ∉ s.finished.items := by simpa [LRU.contains] using hfin
    have hlt : pb.weight < W.weight last := hlight.resolve_left (fun e => hnew (e ▸ hs.lastFin))
    have hnl : pb.hash ≠ last := fun e => hnew (e ▸ hs.lastFin)
    have hnp : pb.hash ∉ hashes pre := by
      intro h
      obtain ⟨x, hx, ex⟩ := List.mem_map.mp h
      exact hnew (ex ▸ hs.fin x hx)
    have hL' := hL.snoc (hR.numbered pb hpbD) hpf
    have hup : pb.parentHash ≠ last := by
      intro e
      have := hR.heavier pb hpbD
      unfold World.Heavier at this
      rw [e, ← (hR.has pb hpbD).weight] at this
      omega
    -- nothing waits on the new block
    have hq : s.queued.get? pb.hash = none := by
      cases hg : s.queued.get? pb.hash with
      | none => rfl
      | some q =>
        obtain ⟨c, hc⟩ := hs.inv.ne _ _ hg
        obtain ⟨b, hb', e1, e2⟩ := hs.inv.que _ _ _ hg hc
        rcases hL.up b hb' with e | e
        · have := hR.numbered b (sub b hb')
          unfold World.Numbered at this
          rw [e, e2] at this
          rcases hL'.low pb hpbD with e3 | e3
          · rw [e3] at this; omega
          · omega
        · rw [e2] at e; exact (hnp e).elim
    -- how the state after marking the block comes about
    have build : ∀ m : OMP, Mark U (· = pb.hash) { s with pending := s.pending.insert pb.hash pb } m → pb.hash ∈ m.finished.items →
        PO W U wl last (pre ++ [pb]) (m.queue pb) := by
      intro m hm hmf
      refine ⟨(hI1.of_maps hm.pending hm.queued).queue hpbD, ⟨hm.room.1, hm.room.2, hm.room.3⟩, hm.shrink.initEmpty.trans hs.init,
        hm.shrink.whitelist.trans hs.wl, fun h => by simp only [OMP.queue]; rw [hm.shrink.blacklist]; exact hs.bl h, ?_, ?_,
        hm.mono _ hs.lastFin, ?_, hm.shrink.lastWeight.trans hs.weight, hm.shrink.lastHash.trans hs.head, hm.log.trans hs.log⟩
      · simp only [OMP.queue]; rw [hm.pending]; exact hpend1
      · intro b hb
        rcases List.mem_append.mp hb with hb | hb
        · exact hm.mono _ (hs.fin b hb)
        · rw [List.mem_singleton.mp hb]; exact hmf
      · intro x hx
        rw [hashes_append]
        rcases hm.shrink.finished x hx with h | h
        · exact (hs.finOnly x h).imp id (fun h => by simp [h])
        · exact .inr (by rw [h]; simp [hashes])
    rw [if_neg (by rw [hs.head]; exact hup), if_neg (by simp [hs.init])]
    by_cases hpar : s.finished.contains pb.parentHash = true
    · rw [if_pos hpar]
      unfold OMP.onConnected
      have hlight' : decide (s.lastWeight < pb.weight) = false := by
        rw [hs.weight]; simp only [decide_eq_false_iff_not]; omega
      split
      · rename_i hh; rw [hlight'] at hh; simp at hh
      · refine (finAdd_mark (o := o) { s with pending := s.pending.insert pb.hash pb } hroom1 (hR.inU pb hpbD)).bind (fun m h2' => ?_)
        obtain ⟨hm, hmf⟩ := h2'
        have hg : m.getPendingChild o pb.hash = .ok none := by
          unfold OMP.getPendingChild
          rw [hm.queued]; simp only [hq]
        rw [hg]
        exact build m hm hmf
    · rw [if_neg hpar]
      have hpre : pre = [] := by
        rcases hpf with e | ⟨a, ha, e⟩
        · rcases hL.first with h | h
          · exact h
          · rw [← e] at h; exact (hnp h).elim
        · refine (hpar ?_).elim
          simp only [LRU.contains, decide_eq_true_eq]
          rw [← e]; exact hs.fin a ha
      unfold OMP.onUnconnected
      rw [if_pos (by rw [hs.weight]; exact hlt)]
      have hold : OMP.tooOld { s with pending := s.pending.insert pb.hash pb } pb = false := by
        unfold OMP.tooOld
        have : (s.pending.insert pb.hash pb).get? s.lastHash = none := by
          rw [hs.head, GMap.get?_insert, if_neg (fun e => hnl e)]
          cases hg : s.pending.get? last with
          | none => rfl
          | some b => have := (hs.inv.pend _ _ hg).2; rw [hpre] at this; simp at this
        simp only [this]
      rw [hold]
      simp only [Bool.false_eq_true, if_false]
      refine (finAdd_mark (o := o) { s with pending := s.pending.insert pb.hash pb } hroom1 (hR.inU pb hpbD)).bind (fun m h2' => ?_)
      exact build m h2'.1 h2'.2

theorem po_run {wl : GMap Nat Hash} {root last : Hash} {post : List PB} : ∀ {pre : List PB} {s : OMP}, Regular W U (· ∈ pre ++ post) →
    PFList W root pre → PO W U wl last pre s → (∀ b ∈ post, ¬ Forbidden wl b) →
    (∀ l1 b l2, post = l1 ++ b :: l2 → b.hash = root ∨ ∃ a ∈ pre ++ l1, a.hash = b.parentHash) →
    (∀ b ∈ post, b.hash = last ∨ b.weight < W.weight last) →
    Out (fun _ => False) (fun s' => PO W U wl last (pre ++ post) s' ∧ PFList W root (pre ++ post)) (s.run o (post.map OOp.block)) := by
  induction post with
  | nil => intro pre s _ hL h _ _ _; rw [List.append_nil]; exact ⟨h, hL⟩
  | cons b post ih =>
    intro pre s hR hL hs hF hpf hlight
    unfold OMP.run
    rw [List.map_cons, List.foldlM_cons]
    have hb := hpf [] b post rfl
    simp only [List.append_nil] at hb
    refine (po_step (hR.mono (fun x hx => by
      rcases List.mem_append.mp hx with h | h
      · simp [h]
      · simp [List.mem_singleton.mp h])) hL hs (hF b (by simp)) hb (hlight b (by simp))).bind (fun s' h' => ?_)
    have := ih (pre := pre ++ [b]) (s := s') (hR.mono (fun x hx => by simpa using hx))
      (hL.snoc (hR.numbered b (by simp)) hb) h' (fun x hx => hF x (by simp [hx])) (by
        intro l1 x l2 e
        have := hpf (b :: l1) x l2 (by rw [e]; rfl)
        simpa using this) (fun x hx => hlight x (by simp [hx]))
    rw [List.append_assoc] at this
    exact this

end Verif
