import Verif.Proofs.OrderingCalm
/-! Parents-first delivery. -/
namespace Verif
open Spec

variable {D : PB → Prop} {o : MapOrder} {U : List Hash} {W : World}

theorem OInv.mono {D' : PB → Prop} {s : OMP} (h : OInv D s) (hD : ∀ b, D b → D' b) : OInv D' s :=
  ⟨fun x b hx => ⟨(h.pend x b hx).1, hD b (h.pend x b hx).2⟩, fun p q c hq hc => by
    obtain ⟨b, h1, h2⟩ := h.que p q c hq hc
    exact ⟨b, hD b h1, h2⟩, h.ne⟩

theorem Regular.mono {D' : PB → Prop} (h : Regular W U D) (hD : ∀ b, D' b → D b) : Regular W U D' :=
  ⟨⟨fun b hb => h.hashed.nz b (hD b hb), fun a b ha hb => h.hashed.parent a b (hD a ha) (hD b hb)⟩, fun b hb => h.has b (hD b hb),
    fun b hb => h.numbered b (hD b hb), fun b hb => h.heavier b (hD b hb), fun b hb => h.inU b (hD b hb)⟩

/-- Emitting when nothing waits on the new head. -/
theorem prepareEmit_stop (hR : Regular W U D) (s : OMP) (new old : List PB) (hI : OInv D s) (hr : Room U s)
    {pre : List PB} {t : PB} (hnew : new = pre ++ [t]) (hD : D t) (hq : s.queued.get? t.hash = none) :
    Out (fun _ => False) (fun s' => ∃ m, Mark U (Known D) { s with lastHash := t.hash, lastWeight := t.weight } m ∧
      t.hash ∈ m.finished.items ∧ s' = { m with log := m.log ++ [.update new old] }) (s.prepareEmit o new old) := by
  unfold OMP.prepareEmit
  refine Out.bind (P := fun s1 => Mark U (Known D) { s with lastHash := t.hash, lastWeight := t.weight } s1 ∧
    t.hash ∈ s1.finished.items) ?_ (fun s1 h1 => ?_)
  · unfold OMP.emitStart
    have : new.getLast? = some t := by rw [hnew]; simp
    rw [this]
    simp only []
    refine (finishSiblings_mark hR.numbered hR.inU { s with lastHash := t.hash, lastWeight := t.weight } t (hI.of_maps rfl rfl)
      ⟨hr.1, hr.2, hr.3⟩).bind (fun s1 h1 => ?_)
    exact (finAdd_mark (o := o) s1 h1.room (hR.inU t hD)).imp
      (fun s2 h3 => ⟨h1.trans (h3.1.mono' (fun x hx => ⟨t, hD, hx.symm⟩)), h3.2⟩)
  · have hq1 : s1.queued.get? s1.lastHash = none := by
      rw [h1.1.queued, h1.1.shrink.lastHash]; exact hq
    have : OMP.emitLoop o (s1.queued.size + 2) s1 new = .ok (s1, new) := by
      unfold OMP.emitLoop OMP.getPendingChild
      rw [hq1]; rfl
    rw [this]
    exact ⟨s1, h1.1, h1.2, rfl⟩

/-- All held blocks hang together above the root. -/
structure Rooted (W : World) (root : Hash) (pending : GMap Hash PB) : Prop where
  filed : ∀ h b, pending.get? h = some b → b.hash = h ∧ W.Has b ∧ W.Numbered b
  up : ∀ h b, pending.get? h = some b → h = root ∨ ∃ p, pending.get? b.parentHash = some p
  low : ∀ h b, pending.get? h = some b → h = root ∨ W.number root < W.number h

theorem reorgInner_finds {root : Hash} {pending : GMap Hash PB} (hP : Rooted W root pending) (m : Int) (hm : W.number root ≤ m)
    (n : Nat) (head : PB) (bs : List PB) (hh : pending.get? head.hash = some head) (hne : head.hash ≠ root)
    {r : Option (PB × List PB)} (hr : reorgInner pending m n head bs = .ok r) :
    ∃ head' bs', r = some (head', bs') ∧ pending.get? head'.hash = some head' ∧ head'.hash ≠ root ∧ head'.number ≤ m + 1 := by
  induction n generalizing head bs with
  | zero => simp [reorgInner] at hr
  | succ n ih =>
    unfold reorgInner at hr
    split at hr
    · rename_i hgt
      split at hr
      · rename_i hp
        rcases hP.up _ _ hh with e | ⟨p, e⟩
        · exact (hne e).elim
        · rw [hp] at e; simp at e
      · rename_i p hp
        obtain ⟨e1, e2, e3⟩ := hP.filed _ _ hp
        obtain ⟨_, f2, f3⟩ := hP.filed _ _ hh
        refine ih p _ (by rw [e1]; exact hp) ?_ hr
        intro e
        have := f2.number
        unfold World.Numbered at f3
        rw [← e1, e] at f3
        omega
    · rename_i hle
      simp only [Except.ok.injEq] at hr
      exact ⟨head, bs, hr.symm, hh, hne, by omega⟩

theorem reorgOuter_finds {root : Hash} {pending : GMap Hash PB} (hP : Rooted W root pending) (start : PB) (n : Nat) (head old : PB)
    (rev bs : List PB) (hh : pending.get? head.hash = some head) (hne : head.hash ≠ root) (ho : pending.get? old.hash = some old)
    {r : ReorgResult} (hr : reorgOuter pending start n head old rev bs = .ok r) : ∃ removed added, r = .ok removed added := by
  induction n generalizing head old rev bs with
  | zero => simp [reorgOuter] at hr
  | succ n ih =>
    unfold reorgOuter at hr
    obtain ⟨r1, h1, h2⟩ := bind_ok.mp hr
    have hlow : W.number root ≤ old.number := by
      rw [(hP.filed _ _ ho).2.1.number]
      rcases hP.low _ _ ho with e | e
      · rw [e]; exact Int.le_refl _
      · omega
    obtain ⟨head', bs', rfl, h3, h4, h5⟩ := reorgInner_finds hP old.number hlow _ head bs hh hne h1
    simp only [] at h2
    split at h2
    · simp only [Except.ok.injEq] at h2
      exact ⟨_, _, h2.symm⟩
    · rename_i hneq
      split at h2
      · rename_i hp
        have hroot : old.hash = root := by
          rcases hP.up _ _ ho with e | ⟨p, e⟩
          · exact e
          · rw [hp] at e; simp at e
        rcases hP.up _ _ h3 with e | ⟨p, hpp⟩
        · exact (h4 e).elim
        · obtain ⟨g1, _, _⟩ := hP.filed _ _ hpp
          obtain ⟨_, f2, f3⟩ := hP.filed _ _ h3
          unfold World.Numbered at f3
          have e1 := f2.number
          have e2 := (hP.filed _ _ ho).2.1.number
          rw [hroot] at e2
          rcases hP.low _ _ hpp with e | e
          · exact (hneq (hroot.trans e.symm)).elim
          · omega
      · rename_i old' hp
        have := hP.filed _ _ hp
        exact ih head' old' _ _ h3 h4 (by rw [this.1]; exact hp) h2

/-- The state after delivering `pre` parents first. -/
structure PF (W : World) (U : List Hash) (wl : GMap Nat Hash) (root : Hash) (pre : List PB) (s : OMP) : Prop where
  inv : OInv (· ∈ pre) s
  room : Room U s
  init : s.initEmpty = false
  wl : s.whitelist = wl
  bl : ∀ h, s.blacklist.contains h = false
  pend : ∀ b ∈ pre, ∃ b', s.pending.get? b.hash = some b'
  fin : ∀ b ∈ pre, b.hash ∈ s.finished.items
  rootFin : root ∈ s.finished.items
  finOnly : ∀ x ∈ s.finished.items, x = root ∨ x ∈ hashes pre
  weight : s.lastWeight = W.weight s.lastHash
  head : (pre = [] ∧ s.lastHash = root) ∨ FirstHeaviest pre s.lastHash
  calm : ∀ n, OOut.evictOlder n ∉ s.log

/-- Facts about the delivered blocks. -/
structure PFList (W : World) (root : Hash) (pre : List PB) : Prop where
  up : ∀ b ∈ pre, b.hash = root ∨ b.parentHash ∈ hashes pre
  low : ∀ b ∈ pre, b.hash = root ∨ W.number root < W.number b.hash
  first : pre = [] ∨ root ∈ hashes pre

theorem mem_hashes {b : PB} {l : List PB} (h : b ∈ l) : b.hash ∈ hashes l := List.mem_map.mpr ⟨b, h, rfl⟩

theorem hashes_append (a b : List PB) : hashes (a ++ b) = hashes a ++ hashes b := by simp [hashes]

theorem PFList.snoc {root : Hash} {pre : List PB} {pb : PB} (h : PFList W root pre) (hN : W.Numbered pb)
    (hpf : pb.hash = root ∨ ∃ a ∈ pre, a.hash = pb.parentHash) : PFList W root (pre ++ [pb]) := by
  refine ⟨?_, ?_, ?_⟩
  · intro b hb
    rw [hashes_append]
    rcases List.mem_append.mp hb with hb | hb
    · exact (h.up b hb).imp id (fun h => by simp [h])
    · rw [List.mem_singleton.mp hb]
      rcases hpf with e | ⟨a, ha, e⟩
      · exact .inl e
      · exact .inr (by rw [← e]; simp [mem_hashes ha])
  · intro b hb
    rcases List.mem_append.mp hb with hb | hb
    · exact h.low b hb
    · rw [List.mem_singleton.mp hb]
      rcases hpf with e | ⟨a, ha, e⟩
      · exact .inl e
      · unfold World.Numbered at hN
        rw [← e] at hN
        rcases h.low a ha with e' | e'
        · exact .inr (by rw [← e']; omega)
        · exact .inr (by omega)
  · refine .inr ?_
    rw [hashes_append]
    rcases h.first with rfl | e
    · rcases hpf with e | ⟨a, ha, e⟩
      · simp [hashes, e]
      · simp at ha
    · simp [e]

theorem firstHeaviest_old {pre : List PB} {pb : PB} {h : Hash} (hf : FirstHeaviest pre h) (hw : ∃ b ∈ pre, b.hash = h ∧ pb.weight ≤ b.weight)
    (hW : ∀ a ∈ pre, ∀ b ∈ pre, a.hash = b.hash → a.weight = b.weight) : FirstHeaviest (pre ++ [pb]) h := by
  obtain ⟨l1, b, l2, rfl, h1, h2, h3⟩ := hf
  refine ⟨l1, b, l2 ++ [pb], by simp, h1, ?_, h3⟩
  intro x hx
  rcases List.mem_append.mp hx with hx | hx
  · exact h2 x hx
  · rw [List.mem_singleton.mp hx]
    obtain ⟨b', hb', e, hle⟩ := hw
    rw [← hW b' hb' b (by simp) (e.trans h1.symm)]
    exact hle

theorem firstHeaviest_new {pre : List PB} {pb : PB} (hw : ∀ b ∈ pre, b.weight < pb.weight) : FirstHeaviest (pre ++ [pb]) pb.hash := by
  refine ⟨pre, pb, [], rfl, rfl, ?_, hw⟩
  intro x hx
  rcases List.mem_append.mp hx with hx | hx
  · exact Nat.le_of_lt (hw x hx)
  · rw [List.mem_singleton.mp hx]; exact Nat.le_refl _

theorem pf_step {wl : GMap Nat Hash} {root : Hash} {pre : List PB} {pb : PB} {s : OMP} (hR : Regular W U (· ∈ pre ++ [pb]))
    (hL : PFList W root pre) (hs : PF W U wl root pre s) (hF : ¬ Forbidden wl pb)
    (hpf : pb.hash = root ∨ ∃ a ∈ pre, a.hash = pb.parentHash) :
    Out (fun _ => False) (PF W U wl root (pre ++ [pb])) (s.handle o pb) := by
  have hpbD : pb ∈ pre ++ [pb] := by simp
  have sub : ∀ b, b ∈ pre → b ∈ pre ++ [pb] := fun b hb => by simp [hb]
  have hwt : ∀ b ∈ pre ++ [pb], b.weight = W.weight b.hash := fun b hb => (hR.has b hb).weight
  have hsame : ∀ a ∈ pre, ∀ b ∈ pre, a.hash = b.hash → a.weight = b.weight := by
    intro a ha b hb e; rw [hwt a (sub a ha), hwt b (sub b hb), e]
  unfold OMP.handle OMP.handleAux
  have hex : s.excludes pb = false := by
    unfold OMP.excludes
    rw [hs.bl, hs.wl, Bool.or_false]
    cases hg : wl.get? (toUint64 pb.number) with
    | none => rfl
    | some h =>
      simp only [ne_eq, decide_not, Bool.not_eq_eq_eq_not, Bool.not_false, decide_eq_true_eq]
      refine Classical.byContradiction fun hc => ?_
      exact hF ⟨h, hg, hc⟩
  rw [hex]
  simp only [Bool.false_eq_true, if_false]
  have hI1 : OInv (· ∈ pre ++ [pb]) { s with pending := s.pending.insert pb.hash pb } := (hs.inv.mono sub).insert hpbD
  have hpend1 : ∀ b ∈ pre ++ [pb], ∃ b', (s.pending.insert pb.hash pb).get? b.hash = some b' := by
    intro b hb
    rw [GMap.get?_insert]
    split
    · exact ⟨_, rfl⟩
    · rename_i hne
      rcases List.mem_append.mp hb with hb | hb
      · exact hs.pend b hb
      · exact (hne (by rw [List.mem_singleton.mp hb])).elim
  have hroom1 : Room U { s with pending := s.pending.insert pb.hash pb } := ⟨hs.room.1, hs.room.2, hs.room.3⟩
  -- how the pieces of the new invariant come together
  have build : ∀ (m : OMP), OInv (· ∈ pre ++ [pb]) m → Room U m → m.initEmpty = false → m.whitelist = wl →
      (∀ h, m.blacklist.contains h = false) → m.pending = s.pending.insert pb.hash pb →
      (∀ x ∈ s.finished.items, x ∈ m.finished.items) → pb.hash ∈ m.finished.items →
      (∀ x ∈ m.finished.items, x = root ∨ x ∈ hashes (pre ++ [pb])) → m.lastWeight = W.weight m.lastHash →
      FirstHeaviest (pre ++ [pb]) m.lastHash → (∀ n, OOut.evictOlder n ∉ m.log) → PF W U wl root (pre ++ [pb]) m := by
    intro m a1 a2 a3 a4 a5 a6 a7 a8 a9 a10 a11 a12
    refine ⟨a1, a2, a3, a4, a5, by rw [a6]; exact hpend1, ?_, a7 _ hs.rootFin, a9, a10, .inr a11, a12⟩
    intro b hb
    rcases List.mem_append.mp hb with hb | hb
    · exact a7 _ (hs.fin b hb)
    · rw [List.mem_singleton.mp hb]; exact a8
  have finOnly1 : ∀ (F : Hash → Prop) (a m : OMP), a.finished = s.finished → Mark U F a m → (∀ x, F x → Known (· ∈ pre ++ [pb]) x) →
      ∀ x ∈ m.finished.items, x = root ∨ x ∈ hashes (pre ++ [pb]) := by
    intro F a m ha hm hF x hx
    rcases hm.shrink.finished x hx with h | h
    · rw [ha] at h
      rw [hashes_append]
      exact (hs.finOnly x h).imp id (fun h => by simp [h])
    · obtain ⟨b, hb, e⟩ := hF x h
      exact .inr (e ▸ mem_hashes hb)
  unfold OMP.accept
  split
  · -- the hash is known
    rename_i hfin
    have hfin : pb.hash ∈ s.finished.items := by simpa [LRU.contains] using hfin
    refine build _ hI1 hroom1 hs.init hs.wl hs.bl rfl (fun x hx => hx) hfin ?_ hs.weight ?_ hs.calm
    · exact finOnly1 (fun _ => False) { s with pending := s.pending.insert pb.hash pb } _ rfl (Mark.refl hroom1) (fun _ h => h.elim)
    · rcases hs.head with ⟨rfl, e⟩ | hf
      · have : pb.hash = root := by
          rcases hs.finOnly _ hfin with e | e
          · exact e
          · simp [hashes] at e
        refine ⟨[], pb, [], rfl, this.trans e.symm, ?_, by simp⟩
        intro x hx
        simp only [List.nil_append, List.mem_singleton] at hx
        rw [hx]; exact Nat.le_refl _
      · have hpre : pb.hash ∈ hashes pre := by
          rcases hs.finOnly _ hfin with e | e
          · rcases hL.first with rfl | h
            · obtain ⟨l1, b, l2, e', _⟩ := hf; simp at e'
            · rw [e]; exact h
          · exact e
        obtain ⟨x, hx, ex⟩ := List.mem_map.mp hpre
        obtain ⟨l1, b, l2, h1, h2, h3, h4⟩ := hf
        refine firstHeaviest_old ⟨l1, b, l2, h1, h2, h3, h4⟩ ⟨b, by rw [h1]; simp, h2, ?_⟩ hsame
        rw [hwt pb hpbD, ← ex, ← hwt x (sub x hx)]
        exact h3 x hx
  · rename_i hfin
    have hnew : pb.hash ∉ s.finished.items := by simpa [LRU.contains] using hfin
    have hnr : pb.hash ≠ root := fun e => hnew (e ▸ hs.rootFin)
    have hnp : pb.hash ∉ hashes pre := by
      intro h
      obtain ⟨x, hx, ex⟩ := List.mem_map.mp h
      exact hnew (ex ▸ hs.fin x hx)
    obtain ⟨par, hpar, epar⟩ : ∃ a ∈ pre, a.hash = pb.parentHash := by
      rcases hpf with e | e
      · exact (hnr e).elim
      · exact e
    have hne : pre ≠ [] := by intro e; rw [e] at hpar; simp at hpar
    have hL' := hL.snoc (hR.numbered pb hpbD) hpf
    have hpbnum : W.number root < W.number pb.hash := by
      rcases hL'.low pb hpbD with e | e
      · exact (hnr e).elim
      · exact e
    obtain ⟨l1, hb, l2, h1, h2, h3, h4⟩ : FirstHeaviest pre s.lastHash := by
      rcases hs.head with ⟨e, _⟩ | h
      · exact (hne e).elim
      · exact h
    have hhb : hb ∈ pre := by rw [h1]; simp
    have hlw : s.lastWeight = hb.weight := by rw [hs.weight, ← h2, hwt hb (sub hb hhb)]
    -- nothing waits on the new block
    have hq : s.queued.get? pb.hash = none := by
      cases hg : s.queued.get? pb.hash with
      | none => rfl
      | some q =>
        obtain ⟨c, hc⟩ := hs.inv.ne _ _ hg
        obtain ⟨b, hb', e1, e2⟩ := hs.inv.que _ _ _ hg hc
        rcases hL.up b hb' with e | e
        · have := hR.numbered b (sub b hb')
          unfold World.Numbered at this
          rw [e, e2] at this
          omega
        · rw [e2] at e; exact (hnp e).elim
    split
    · rename_i hlast
      simp only [] at hlast
      have hheavy := hR.heavier pb hpbD
      unfold World.Heavier at hheavy
      rw [hlast, ← hs.weight, ← hwt pb hpbD, hlw] at hheavy
      refine (prepareEmit_stop hR { s with pending := s.pending.insert pb.hash pb } [pb] [] hI1 hroom1 (pre := []) rfl hpbD hq).imp ?_
      rintro s' ⟨m, hm, hmf, rfl⟩
      refine build _ (hI1.of_maps hm.pending hm.queued) ⟨hm.room.1, hm.room.2, hm.room.3⟩ (hm.shrink.initEmpty.trans hs.init)
        (hm.shrink.whitelist.trans hs.wl) (fun h => by simp only []; rw [hm.shrink.blacklist]; exact hs.bl h) hm.pending
        (fun x hx => hm.mono x hx) hmf (finOnly1 _ { s with pending := s.pending.insert pb.hash pb, lastHash := pb.hash, lastWeight := pb.weight }
          m rfl hm (fun _ h => h)) ?_ ?_ (fun n hn => by
            have hn : OOut.evictOlder n ∈ m.log ++ [_] := hn
            rw [hm.log] at hn
            rcases List.mem_append.mp hn with hn | hn
            · exact hs.calm n hn
            · simp at hn)
      · simp only []; rw [hm.shrink.lastWeight, hm.shrink.lastHash]; exact hwt pb hpbD
      · simp only []; rw [hm.shrink.lastHash]
        exact firstHeaviest_new (fun b hb' => Nat.lt_of_le_of_lt (h3 b hb') hheavy)
    · rw [if_neg (by simp [hs.init])]
      have hpf' : s.finished.contains pb.parentHash = true := by
        simp only [LRU.contains, decide_eq_true_eq]
        rw [← epar]; exact hs.fin par hpar
      rw [if_pos hpf']
      have hheadp : ∃ lb, (s.pending.insert pb.hash pb).get? s.lastHash = some lb ∧ lb.hash = s.lastHash := by
        obtain ⟨lb, e⟩ := hpend1 hb (sub hb hhb)
        rw [h2] at e
        exact ⟨lb, e, (hI1.pend _ _ e).1⟩
      obtain ⟨lb, hlb, hlbh⟩ := hheadp
      unfold OMP.onConnected
      simp only [hlb]
      by_cases hlt : s.lastWeight < pb.weight
      · simp only [hlt, decide_true]
        have hP : Rooted W root (s.pending.insert pb.hash pb) := by
          refine ⟨?_, ?_, ?_⟩
          · intro h b hb'
            obtain ⟨e1, e2⟩ := hI1.pend h b hb'
            exact ⟨e1, hR.has b e2, hR.numbered b e2⟩
          · intro h b hb'
            obtain ⟨e1, e2⟩ := hI1.pend h b hb'
            rcases hL'.up b e2 with e | e
            · exact .inl (e1.symm.trans e)
            · obtain ⟨x, hx, ex⟩ := List.mem_map.mp e
              obtain ⟨p, hp⟩ := hpend1 x hx
              exact .inr ⟨p, by rw [← ex]; exact hp⟩
          · intro h b hb'
            obtain ⟨e1, e2⟩ := hI1.pend h b hb'
            rw [← e1]
            exact hL'.low b e2
        obtain ⟨r, hr, hspec⟩ := (prepareReorg_spec (W := W) (pending := s.pending.insert pb.hash pb) (D := (· ∈ pre ++ [pb])) hI1.pendKeys
          (fun h b hb' => (hI1.pend h b hb').2) hR.numbered pb lb hpbD).total
        rw [hr]
        obtain ⟨removed, added, rfl⟩ := reorgOuter_finds hP pb _ pb lb _ _ (by simp) hnr (by rw [hlbh]; exact hlb) hr
        obtain ⟨p, hk⟩ := hspec.1 _ _ rfl
        obtain ⟨pre', hpre'⟩ := hk.last
        refine (prepareEmit_stop hR { s with pending := s.pending.insert pb.hash pb } added removed hI1 hroom1 hpre' hpbD hq).imp ?_
        rintro s' ⟨m, hm, hmf, rfl⟩
        refine build _ (hI1.of_maps hm.pending hm.queued) ⟨hm.room.1, hm.room.2, hm.room.3⟩ (hm.shrink.initEmpty.trans hs.init)
          (hm.shrink.whitelist.trans hs.wl) (fun h => by simp only []; rw [hm.shrink.blacklist]; exact hs.bl h) hm.pending
          (fun x hx => hm.mono x hx) hmf (finOnly1 _ { s with pending := s.pending.insert pb.hash pb, lastHash := pb.hash, lastWeight := pb.weight }
            m rfl hm (fun _ h => h)) ?_ ?_ (fun n hn => by
            have hn : OOut.evictOlder n ∈ m.log ++ [_] := hn
            rw [hm.log] at hn
            rcases List.mem_append.mp hn with hn | hn
            · exact hs.calm n hn
            · simp at hn)
        · simp only []; rw [hm.shrink.lastWeight, hm.shrink.lastHash]; exact hwt pb hpbD
        · simp only []; rw [hm.shrink.lastHash]
          rw [hlw] at hlt
          exact firstHeaviest_new (fun b hb' => Nat.lt_of_le_of_lt (h3 b hb') hlt)
      · simp only [hlt, decide_false]
        refine (finAdd_mark (o := o) { s with pending := s.pending.insert pb.hash pb } hroom1 (hR.inU pb hpbD)).bind (fun m h2' => ?_)
        obtain ⟨hm, hmf⟩ := h2'
        have hg : m.getPendingChild o pb.hash = .ok none := by
          unfold OMP.getPendingChild
          rw [hm.queued]; simp only [hq]
        rw [hg]
        refine build _ ((hI1.of_maps hm.pending hm.queued).queue hpbD) ⟨hm.room.1, hm.room.2, hm.room.3⟩ (hm.shrink.initEmpty.trans hs.init)
          (hm.shrink.whitelist.trans hs.wl) (fun h => by simp only [OMP.queue]; rw [hm.shrink.blacklist]; exact hs.bl h) hm.pending
          (fun x hx => hm.mono x hx) hmf (finOnly1 _ { s with pending := s.pending.insert pb.hash pb } m rfl hm
            (fun x hx => ⟨pb, hpbD, hx.symm⟩)) ?_ ?_ (fun n hn => by
              have hn : OOut.evictOlder n ∈ m.log := hn
              rw [hm.log] at hn
              exact hs.calm n hn)
        · simp only [OMP.queue]; rw [hm.shrink.lastWeight, hm.shrink.lastHash]; exact hs.weight
        · simp only [OMP.queue]; rw [hm.shrink.lastHash]
          exact firstHeaviest_old ⟨l1, hb, l2, h1, h2, h3, h4⟩ ⟨hb, hhb, h2, by rw [← hlw]; omega⟩ hsame

theorem pf_run {wl : GMap Nat Hash} {root : Hash} {post : List PB} : ∀ {pre : List PB} {s : OMP}, Regular W U (· ∈ pre ++ post) →
    PFList W root pre → PF W U wl root pre s → (∀ b ∈ post, ¬ Forbidden wl b) →
    (∀ l1 b l2, post = l1 ++ b :: l2 → b.hash = root ∨ ∃ a ∈ pre ++ l1, a.hash = b.parentHash) →
    Out (fun _ => False) (PF W U wl root (pre ++ post)) (s.run o (post.map OOp.block)) := by
  induction post with
  | nil => intro pre s _ _ h _ _; rw [List.append_nil]; exact h
  | cons b post ih =>
    intro pre s hR hL hs hF hpf
    unfold OMP.run
    rw [List.map_cons, List.foldlM_cons]
    have hb := hpf [] b post rfl
    simp only [List.append_nil] at hb
    refine (pf_step (hR.mono (fun x hx => by
      rcases List.mem_append.mp hx with h | h
      · simp [h]
      · simp [List.mem_singleton.mp h])) hL hs (hF b (by simp)) hb).bind (fun s' h' => ?_)
    have := ih (pre := pre ++ [b]) (s := s') (hR.mono (fun x hx => by simpa using hx))
      (hL.snoc (hR.numbered b (by simp)) hb) h' (fun x hx => hF x (by simp [hx])) (by
        intro l1 x l2 e
        have := hpf (b :: l1) x l2 (by rw [e]; rfl)
        simpa using this)
    rw [List.append_assoc] at this
    exact this

end Verif
