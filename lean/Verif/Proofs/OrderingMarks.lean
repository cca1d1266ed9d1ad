import Verif.Proofs.OrderingTerm
import Verif.Proofs.OrderingRun
/-! What the ordering layer remembers was handled, and what it excludes was. -/
namespace Verif
open Spec

variable {D : PB → Prop} {o : MapOrder} {r : Hash}

/-- Hashes remembered or excluded belong to blocks in `D`, or are `r` (the last block processed before this run). -/
structure Marks (D : PB → Prop) (r : Hash) (s : OMP) : Prop where
  inv : OInv D s
  fin : ∀ h, h ∈ s.finished.items → h = r ∨ Known D h
  black : ∀ h, s.blacklist.contains h = true → Known D h

theorem Marks.shrink {s s' : OMP} (h : Marks D r s) (hs : Shrink (Known D) s s') : Marks D r s' :=
  ⟨h.inv.shrink hs, fun x hx => (hs.finished x hx).elim (h.fin x) .inr, by rw [hs.blacklist]; exact h.black⟩

theorem Marks.of_maps {s s' : OMP} (h : Marks D r s) (h1 : s'.pending = s.pending) (h2 : s'.queued = s.queued) (h3 : s'.finished = s.finished)
    (h4 : s'.blacklist = s.blacklist) : Marks D r s' :=
  ⟨h.inv.of_maps h1 h2, by rw [h3]; exact h.fin, by rw [h4]; exact h.black⟩

theorem Marks.queue {s : OMP} (h : Marks D r s) {pb : PB} (hD : D pb) : Marks D r (s.queue pb) :=
  ⟨h.inv.queue hD, h.fin, h.black⟩

theorem prepareEmit_marks (s : OMP) (new old : List PB) (hs : Marks D r s) (hD : ∀ b ∈ new, D b) :
    Out (fun _ => True) (Marks D r) (s.prepareEmit o new old) := by
  unfold OMP.prepareEmit
  refine Out.bind (P := Marks D r) ?_ ?_
  · unfold OMP.emitStart
    split
    · exact hs
    · rename_i newest hn
      have hm : newest ∈ new := List.mem_of_getLast? hn
      simp only []
      have h0 : Marks D r { s with lastHash := newest.hash, lastWeight := newest.weight } := hs.of_maps rfl rfl rfl rfl
      refine (finishSiblings_shrink (D := D) _ newest h0.inv).bind (fun s1 h1 => ?_)
      exact (finAdd_shrink o (F := Known D) s1 ⟨newest, hD _ hm, rfl⟩).imp (fun s2 h2 => (h0.shrink h1).shrink h2)
  · intro s1 h1
    refine (emitLoop_out (D := D) _ s1 new h1.inv).bind (fun x hx => ?_)
    have h2 : Marks D r { s1 with lastHash := x.1.lastHash, lastWeight := x.1.lastWeight } := h1.of_maps rfl rfl rfl rfl
    exact (h2.shrink hx.shrink).of_maps rfl rfl rfl rfl

theorem handleAux_marks (n : Nat) (s : OMP) (pb : PB) (rg : Bool) (hs : Marks D r s) (hD : D pb) :
    Out (fun _ => True) (Marks D r) (OMP.handleAux o n s pb rg) := by
  induction n generalizing s pb rg with
  | zero => trivial
  | succ n ih =>
    unfold OMP.handleAux
    split
    · refine ⟨hs.inv.of_maps rfl rfl, hs.fin, ?_⟩
      intro h hh
      simp only [GMap.contains_insert, Bool.or_eq_true, decide_eq_true_eq] at hh
      rcases hh with hh | hh
      · exact ⟨pb, hD, by simpa using hh⟩
      · exact hs.black h hh
    · have hs1 : Marks D r { s with pending := s.pending.insert pb.hash pb } := ⟨hs.inv.insert hD, hs.fin, hs.black⟩
      unfold OMP.accept
      split
      · exact hs1
      split
      · exact prepareEmit_marks _ _ _ hs1 (by simpa using hD)
      split
      · exact prepareEmit_marks _ _ _ hs1 (by simpa using hD)
      split
      · unfold OMP.onConnected
        split
        · rename_i last hl _
          have hf : Filed (s.pending.insert pb.hash pb) := fun h b hb => (hs1.inv.pend h b hb).1
          have hx := (prepareReorg_out hf pb last).and (prepareReorg_missing (s.pending.insert pb.hash pb) pb last)
          refine (hx.mono (E' := fun _ => True) (fun _ _ => trivial) (fun _ h => h)).bind ?_
          rintro x ⟨h1, h2⟩
          split
          · rename_i removed added
            obtain ⟨p, hp⟩ := h1 removed added rfl
            refine prepareEmit_marks _ _ _ hs1 ?_
            intro b hb
            rcases hp.addedIn b hb with rfl | ⟨k, hk⟩
            · exact hD
            · exact (hs1.inv.pend _ _ hk).2
          · rename_i last
            rw [h2 last rfl]
            exact hs1.queue hD
          · exact hs1
        · refine (finAdd_shrink o (F := Known D) _ ⟨pb, hD, rfl⟩).bind ?_
          intro s2 h2
          have h2 := hs1.shrink h2
          refine (out_top _).bind ?_
          intro x _
          split
          · exact h2.queue hD
          · simp only []
            split
            · exact (h2.of_maps (s' := { s2 with tick := s2.tick + 1 }) rfl rfl rfl rfl).queue hD
            · rename_i c hc
              refine (ih { s2 with tick := s2.tick + 1 } c true (h2.of_maps rfl rfl rfl rfl) (h2.inv.pend _ _ hc).2).bind
                (fun s3 h3 => h3.queue hD)
      · unfold OMP.onUnconnected
        split
        · split
          · exact ⟨hs1.inv.erase _, hs1.fin, hs1.black⟩
          · exact (finAdd_shrink o (F := Known D) _ ⟨pb, hD, rfl⟩).bind (fun s2 h2 => (hs1.shrink h2).queue hD)
        · exact hs1.queue hD

theorem newOMP_marks {cfg : Config} {s : OMP} (hn : newOMP cfg = .ok s) : Marks D cfg.lastHash s := by
  refine ⟨(newOMP_inv hn).1, ?_, ?_⟩
  · unfold newOMP at hn
    split at hn
    · simp at hn
    · simp only [Except.ok.injEq] at hn
      subst hn
      intro h hh
      rcases LRU.mem_of_mem_add hh with e | e
      · exact .inl e
      · simp [LRU.new] at e
  · unfold newOMP at hn
    split at hn
    · simp at hn
    · simp only [Except.ok.injEq] at hn
      subst hn
      intro h hh
      simp [GMap.contains, GMap.get?, GMap.empty, GMap.look] at hh

theorem run_marks {cfg : Config} {ops : List OOp} {s0 s : OMP} (hn : newOMP cfg = .ok s0) (hr : s0.run o ops = .ok s) :
    Marks (· ∈ blocksOf ops) cfg.lastHash s := by
  refine orun_ind (o := o) (P := fun _ s => Marks (· ∈ blocksOf ops) cfg.lastHash s) (newOMP_marks hn) ?_ hr
  rintro pre op post s1 s2 e h1 hop
  cases op with
  | reorg n h => cases hop; exact h1.of_maps rfl rfl rfl rfl
  | block b => exact (handleAux_marks (o := o) _ s1 b false h1 (mem_blocksOf e)).ok hop

/-- A block that follows the head, is not excluded, was not handled and has no children waiting is sent at once, alone. -/
theorem handle_next {W : World} (hN : ∀ b, D b → W.Numbered b) (s : OMP) (pb : PB) (hs : OInv D s) (hD : D pb) (hx : s.excludes pb = false)
    (hf : s.finished.contains pb.hash = false) (hp : pb.parentHash = s.lastHash) (hq : s.queued.get? pb.hash = none) :
    ∃ s' l, s.handle o pb = .ok s' ∧ OnlyEvicts l ∧ s'.log = s.log ++ l ++ [.update [pb] []] ∧ s'.lastHash = pb.hash ∧
      s'.whitelist = s.whitelist ∧ s'.blacklist = s.blacklist := by
  have key : Out (fun _ => False) (fun s' => ∃ l, OnlyEvicts l ∧ s'.log = s.log ++ l ++ [.update [pb] []] ∧ s'.lastHash = pb.hash ∧
      s'.whitelist = s.whitelist ∧ s'.blacklist = s.blacklist) (s.handle o pb) := by
    unfold OMP.handle OMP.handleAux
    rw [hx]
    simp only [Bool.false_eq_true, if_false]
    unfold OMP.accept
    rw [if_neg (by simp only [hf]; simp), if_pos hp]
    unfold OMP.prepareEmit
    refine (emitStart_total hN (D := D) { s with pending := s.pending.insert pb.hash pb } [pb] (hs.insert hD) (by simpa using hD)).bind ?_
    intro s1 h1
    have hq1 : s1.queued.get? s1.lastHash = none := by
      rw [h1.lastHash]
      show s1.queued.get? pb.hash = none
      cases e : s1.queued.get? pb.hash with
      | none => rfl
      | some q =>
        have := h1.queued _ _ e
        simp only [] at this
        rw [hq] at this; cases this
    have he : s1.emitLoop o (s1.queued.size + 2) [pb] = .ok (s1, [pb]) := by
      unfold OMP.emitLoop OMP.getPendingChild
      rw [hq1]; rfl
    rw [he]
    obtain ⟨l, hl, hlo, _⟩ := h1.log
    exact ⟨l, hlo, by show s1.log ++ _ = _; rw [hl], h1.lastHash, h1.whitelist, h1.blacklist⟩
  obtain ⟨s', h, l, h1, h2, h3, h4, h5⟩ := key.total
  exact ⟨s', l, h, h1, h2, h3, h4, h5⟩

/-- Walking down from `b` along held blocks to the first one above number `m`. -/
theorem reorgInner_path {pending : GMap Hash PB} {m : Int} {h : Hash} (pre : List PB) (b : PB) (rest : List PB) (n : Nat)
    (hl : Linked h (pre ++ [b])) (hheld : ∀ a ∈ pre, pending.get? a.hash = some a)
    (hnum : ∀ l1 a l2, pre ++ [b] = l1 ++ a :: l2 → a.number = m + 1 + l1.length) (hn : pre.length < n) :
    ∃ first more, pre ++ [b] = first :: more ∧ reorgInner pending m n b (b :: rest) = .ok (some (first, (pre ++ [b]) ++ rest)) := by
  induction n generalizing pre b rest with
  | zero => omega
  | succ n ih =>
    unfold reorgInner
    rcases List.eq_nil_or_concat pre with rfl | ⟨pre', a, rfl⟩
    · refine ⟨b, [], rfl, ?_⟩
      have := hnum [] b [] rfl
      simp only [List.length_nil] at this
      rw [if_neg (by omega)]
      rfl
    · rw [List.concat_eq_append] at *
      have h1 := hnum (pre' ++ [a]) b [] rfl
      have h2 := hnum pre' a [b] (by simp)
      simp only [List.length_append, List.length_singleton] at h1
      rw [if_pos (by omega)]
      have hp : b.parentHash = a.hash := by
        obtain ⟨_, k⟩ := linked_append.mp hl
        rw [endOf_append] at k
        exact k.1
      rw [hp, hheld a (by simp)]
      simp only []
      obtain ⟨first, more, e1, e2⟩ := ih pre' a (b :: rest) (linked_append.mp hl).1 (fun x hx => hheld x (by simp [hx]))
        (fun l1 x l2 e => hnum l1 x (l2 ++ [b]) (by rw [e]; simp)) (by simp at hn; omega)
      refine ⟨first, more ++ [b], by rw [e1]; simp, ?_⟩
      rw [e2]; simp

/-- The path of held blocks from the old head up to the new one is what a reorg to the new one adds. -/
theorem prepareReorg_path {pending : GMap Hash PB} {old b : PB} {pre : List PB} (hl : Linked old.hash (pre ++ [b]))
    (hheld : ∀ a ∈ pre, pending.get? a.hash = some a)
    (hnum : ∀ l1 a l2, pre ++ [b] = l1 ++ a :: l2 → a.number = old.number + 1 + l1.length) :
    prepareReorg pending b old = .ok (.ok [] (pre ++ [b])) := by
  have hsize : pre.length ≤ pending.size := by
    have hnd : (pre.map PB.hash).Nodup := by
      rw [List.nodup_iff_pairwise_ne, List.pairwise_map, List.pairwise_iff_getElem]
      intro i j hi hj hij e
      have hi' := hheld _ (List.getElem_mem hi)
      have hj' := hheld _ (List.getElem_mem hj)
      rw [e, hj'] at hi'
      have hi' := Option.some.inj hi'
      have n1 := hnum (pre.take i) pre[i] (pre.drop (i + 1) ++ [b])
        (by rw [← List.cons_append, ← List.append_assoc, List.getElem_cons_drop, List.take_append_drop])
      have n2 := hnum (pre.take j) pre[j] (pre.drop (j + 1) ++ [b])
        (by rw [← List.cons_append, ← List.append_assoc, List.getElem_cons_drop, List.take_append_drop])
      rw [hi'] at n2
      simp only [List.length_take] at n1 n2
      omega
    have := nodup_length_le (l := pre.map PB.hash) (l' := pending.keys) hnd (by
      intro x hx
      obtain ⟨a, ha, rfl⟩ := List.mem_map.mp hx
      exact (GMap.mem_keys_iff _).mpr ⟨a, hheld a ha⟩)
    simpa [GMap.keys, GMap.size] using this
  obtain ⟨first, more, e1, e2⟩ := reorgInner_path (pending := pending) pre b [] (pending.size + 2) hl hheld hnum (by omega)
  unfold prepareReorg reorgOuter
  rw [e2]
  have : old.hash = first.parentHash := by
    rw [e1] at hl; exact hl.1.symm
  simp [this, bind, Except.bind]

/-- If the head was announced by a reorg notification and is held, a block heavier than the former head, connected by held blocks, is
sent together with them. -/
theorem handle_reconnect (s : OMP) (pb old : PB) (pre : List PB) (hs : OInv D s) (hD : D pb) (hx : s.excludes pb = false)
    (hf : s.finished.contains pb.hash = false) (hold : s.pending.get? s.lastHash = some old) (hnew : pb.hash ≠ s.lastHash)
    (hl : Linked s.lastHash (pre ++ [pb])) (hheld : ∀ a ∈ pre, s.pending.get? a.hash = some a ∧ a.hash ≠ pb.hash)
    (hnum : ∀ l1 a l2, pre ++ [pb] = l1 ++ a :: l2 → a.number = old.number + 1 + l1.length)
    (hw : s.lastWeight < pb.weight) (hpar : s.finished.contains pb.parentHash = true) (hpl : pb.parentHash ≠ s.lastHash) :
    Out (fun _ => True) (fun s' => ∃ l ext, OnlyEvicts l ∧ s'.log = s.log ++ l ++ [.update (pre ++ [pb] ++ ext) []]) (s.handle o pb) := by
  have hh := (hs.pend _ _ hold).1
  unfold OMP.handle OMP.handleAux
  rw [hx]
  simp only [Bool.false_eq_true, if_false]
  unfold OMP.accept
  rw [if_neg (by simp only [hf]; simp), if_neg hpl, if_neg (by simp only [hpar]; simp), if_pos hpar]
  unfold OMP.onConnected
  have hg : ({ s with pending := s.pending.insert pb.hash pb } : OMP).pending.get? s.lastHash = some old := by
    show (s.pending.insert pb.hash pb).get? s.lastHash = _
    rw [GMap.get?_insert, if_neg hnew]; exact hold
  have hd : decide (s.lastWeight < pb.weight) = true := by simpa using hw
  simp only [] at hg ⊢
  rw [hg, hd]
  simp only []
  have hr := prepareReorg_path (pending := s.pending.insert pb.hash pb) (old := old) (b := pb) (pre := pre) (by rw [hh]; exact hl)
    (fun a ha => by rw [GMap.get?_insert, if_neg (Ne.symm (hheld a ha).2)]; exact (hheld a ha).1) hnum
  rw [hr]
  refine (prepareEmit_out (D := D) (o := o) { s with pending := s.pending.insert pb.hash pb } (pre ++ [pb]) [] (hs.insert hD) ?_).imp ?_
  · intro b hb
    rcases List.mem_append.mp hb with hb | hb
    · exact (hs.pend _ _ (hheld b hb).1).2
    · rw [List.mem_singleton.mp hb]; exact hD
  · rintro s' ⟨ext, h⟩
    obtain ⟨l, h1, h2⟩ := h.log
    exact ⟨l, ext, h1, h2⟩

end Verif
