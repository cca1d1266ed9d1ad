import Verif.Proofs.OrderingParents
/-! Parents-first delivery of a tree to an ordering layer that was started from a stored block, mixed with blocks that have nothing to do with the tree. -/
namespace Verif
open Spec

variable {o : MapOrder} {U : List Hash} {W : World} {Tr St : PB → Prop}

/-- Blocks `St` beside the tree `Tr`: no parents or children of blocks of the tree or of the stored block `last`. -/
structure Beside (last : Hash) (Tr St : PB → Prop) : Prop where
  last : ∀ b, St b → b.hash ≠ last ∧ b.parentHash ≠ last
  apart : ∀ a b, Tr a → St b → a.hash ≠ b.hash ∧ b.parentHash ≠ a.hash ∧ a.parentHash ≠ b.hash

/-- The state after delivering the blocks `pre` of the tree, and any others. -/
structure Mixed (W : World) (U : List Hash) (wl : GMap Nat Hash) (last : Hash) (St : PB → Prop) (pre : List PB) (s : OMP) : Prop where
  inv : OInv (fun b => b ∈ pre ∨ St b) s
  room : Room U s
  init : s.initEmpty = false
  wl : s.whitelist = wl
  bl : ∀ h, s.blacklist.contains h = false
  pend : ∀ b ∈ pre, ∃ b', s.pending.get? b.hash = some b'
  fin : ∀ b ∈ pre, b.hash ∈ s.finished.items
  lastFin : last ∈ s.finished.items
  finOnly : ∀ x ∈ s.finished.items, x = last ∨ x ∈ hashes pre ∨ Known St x
  weight : s.lastWeight = W.weight s.lastHash
  head : (last ∉ hashes pre ∧ (∀ b ∈ pre, b.weight < W.weight last) ∧ s.lastHash = last ∧ s.log = []) ∨ (last ∈ hashes pre ∧ FirstHeaviest pre s.lastHash)
  calm : ∀ n, OOut.evictOlder n ∉ s.log

section
variable {wl : GMap Nat Hash} {root last : Hash} {pre : List PB} {pb : PB} {s : OMP}

theorem not_excluded (hs : Mixed W U wl last St pre s) (hF : ¬ Forbidden wl pb) : s.excludes pb = false := by
  unfold OMP.excludes
  rw [hs.bl, hs.wl, Bool.or_false]
  cases hg : wl.get? (toUint64 pb.number) with
  | none => rfl
  | some h =>
    simp only [ne_eq, decide_not, Bool.not_eq_eq_eq_not, Bool.not_false, decide_eq_true_eq]
    refine Classical.byContradiction fun hc => ?_
    exact hF ⟨h, hg, hc⟩

/-- The head is the stored block or a block of the tree, and not lighter than the stored block. -/
theorem Mixed.top (hs : Mixed W U wl last St pre s) (hR : ∀ b ∈ pre, W.Has b) : (s.lastHash = last ∨ ∃ b ∈ pre, b.hash = s.lastHash) ∧ W.weight last ≤ s.lastWeight := by
  rw [hs.weight]
  rcases hs.head with ⟨_, _, e, _⟩ | ⟨h, l1, b, l2, e1, e2, e3, _⟩
  · rw [e]; exact ⟨.inl rfl, Nat.le_refl _⟩
  · have hb : b ∈ pre := by rw [e1]; simp
    refine ⟨.inr ⟨b, hb, e2⟩, ?_⟩
    obtain ⟨x, hx, ex⟩ := List.mem_map.mp h
    have := e3 x hx
    rw [(hR x hx).weight, (hR b hb).weight, ex, e2] at this
    exact this

theorem reorgInner_beside {pending : GMap Hash PB} (hB : Beside last Tr St) (hP : ∀ h b, pending.get? h = some b → b.hash = h ∧ (Tr b ∨ St b)) (m : Int)
    (n : Nat) (head : PB) (bs : List PB) (hh : St head) {head' : PB} {bs' : List PB} (hr : reorgInner pending m n head bs = .ok (some (head', bs'))) : St head' := by
  induction n generalizing head bs with
  | zero => simp [reorgInner] at hr
  | succ n ih =>
    unfold reorgInner at hr
    split at hr
    · split at hr
      · simp at hr
      · rename_i p hp
        obtain ⟨e, h⟩ := hP _ _ hp
        exact ih p _ (h.resolve_left (fun h => (hB.apart p head h hh).2.1 e.symm)) hr
    · simp only [Except.ok.injEq, Option.some.injEq, Prod.mk.injEq] at hr
      rw [← hr.1]; exact hh

/-- Between the tree and a block beside it no common ancestor is found. -/
theorem reorgOuter_beside {pending : GMap Hash PB} (hB : Beside last Tr St) (hP : ∀ h b, pending.get? h = some b → b.hash = h ∧ (Tr b ∨ St b)) (start : PB)
    (n : Nat) (head old : PB) (rev bs : List PB) (hh : St head) (ho : Tr old) {r : ReorgResult} (hr : reorgOuter pending start n head old rev bs = .ok r) :
    r = .missing start ∨ r = .noAncestor := by
  induction n generalizing head old rev bs with
  | zero => simp [reorgOuter] at hr
  | succ n ih =>
    unfold reorgOuter at hr
    obtain ⟨r1, h1, h2⟩ := bind_ok.mp hr
    cases r1 with
    | none =>
      simp only [Except.ok.injEq] at h2
      exact .inl h2.symm
    | some x =>
      obtain ⟨head', bs'⟩ := x
      have hh' := reorgInner_beside hB hP _ _ head bs hh h1
      simp only [] at h2
      split at h2
      · rename_i e
        exact ((hB.apart old head' ho hh').2.1 e.symm).elim
      · split at h2
        · simp only [Except.ok.injEq] at h2
          exact .inr h2.symm
        · rename_i p hp
          obtain ⟨e, h⟩ := hP _ _ hp
          exact ih head' p _ _ hh' (h.resolve_right (fun h => (hB.apart old p ho h).2.2 e.symm)) h2

/-- Whatever is done with a block beside the tree, the tree does not notice. -/
theorem mixed_stray (hB : Beside last Tr St) (hR : Regular W U (fun b => Tr b ∨ St b)) (hpre : ∀ b ∈ pre, Tr b) (hF : ∀ b, St b → ¬ Forbidden wl b) (n : Nat) :
    ∀ {s : OMP} {pb : PB} (reorg : Bool), Mixed W U wl last St pre s → St pb → Out (fun _ => True) (Mixed W U wl last St pre) (OMP.handleAux o n s pb reorg) := by
  induction n with
  | zero => intro s pb reorg _ _; trivial
  | succ n ih =>
    intro s pb reorg hs hpb
    have htop := hs.top (fun b hb => hR.has b (.inl (hpre b hb)))
    unfold OMP.handleAux
    rw [not_excluded hs (hF pb hpb)]
    simp only [Bool.false_eq_true, if_false]
    have h1 : Mixed W U wl last St pre { s with pending := s.pending.insert pb.hash pb } := by
      refine ⟨hs.inv.insert (.inr hpb), ⟨hs.room.1, hs.room.2, hs.room.3⟩, hs.init, hs.wl, hs.bl, ?_, hs.fin, hs.lastFin, hs.finOnly, hs.weight, hs.head, hs.calm⟩
      intro b hb
      simp only []
      rw [GMap.get?_insert, if_neg (fun e => (hB.apart b pb (hpre b hb) hpb).1 e.symm)]
      exact hs.pend b hb
    have mark : ∀ m : OMP, Mark U (· = pb.hash) { s with pending := s.pending.insert pb.hash pb } m → Mixed W U wl last St pre m := by
      intro m hm
      refine ⟨h1.inv.of_maps hm.pending hm.queued, hm.room, hm.shrink.initEmpty.trans hs.init, hm.shrink.whitelist.trans hs.wl,
        fun h => by rw [hm.shrink.blacklist]; exact hs.bl h, by rw [hm.pending]; exact h1.pend, fun b hb => hm.mono _ (hs.fin b hb), hm.mono _ hs.lastFin, ?_,
        by rw [hm.shrink.lastWeight, hm.shrink.lastHash]; exact hs.weight, by rw [hm.shrink.lastHash, hm.log]; exact hs.head, by rw [hm.log]; exact hs.calm⟩
      intro x hx
      rcases hm.shrink.finished x hx with h | h
      · exact hs.finOnly x h
      · exact .inr (.inr ⟨pb, hpb, h.symm⟩)
    have queue : ∀ {m : OMP}, Mixed W U wl last St pre m → Mixed W U wl last St pre (m.queue pb) := by
      intro m hm
      exact ⟨hm.inv.queue (.inr hpb), ⟨hm.room.1, hm.room.2, hm.room.3⟩, hm.init, hm.wl, hm.bl, hm.pend, hm.fin, hm.lastFin, hm.finOnly, hm.weight, hm.head, hm.calm⟩
    have hadd := (finAdd_mark (o := o) { s with pending := s.pending.insert pb.hash pb } h1.room (hR.inU pb (.inr hpb))).mono (E' := fun _ => True)
      (fun _ h => trivial) (fun _ h => h)
    unfold OMP.accept
    split
    · exact h1
    split
    · rename_i e
      simp only [] at e
      rcases htop.1 with h | ⟨b, hb, h⟩
      · exact ((hB.last pb hpb).2 (e.trans h)).elim
      · exact ((hB.apart b pb (hpre b hb) hpb).2.1 (e.trans h.symm)).elim
    rw [if_neg (by simp [hs.init])]
    split
    · unfold OMP.onConnected
      split
      · rename_i lb hlb _
        have hlb : (s.pending.insert pb.hash pb).get? s.lastHash = some lb := hlb
        obtain ⟨e, hl⟩ := h1.inv.pend _ _ hlb
        have hTl : Tr lb := by
          refine hpre lb (hl.resolve_right (fun h => ?_))
          rcases htop.1 with h' | ⟨b, hb, h'⟩
          · exact (hB.last lb h).1 (e.trans h')
          · exact (hB.apart b lb (hpre b hb) h).1 (h'.trans e.symm)
        have hP : ∀ h b, (s.pending.insert pb.hash pb).get? h = some b → b.hash = h ∧ (Tr b ∨ St b) :=
          fun h b hb => ⟨(h1.inv.pend h b hb).1, (h1.inv.pend h b hb).2.imp (hpre b) id⟩
        refine Out.bind (P := fun r => r = .missing pb ∨ r = .noAncestor) ?_ (fun r hr => ?_)
        · cases hr : prepareReorg (s.pending.insert pb.hash pb) pb lb with
          | error f => trivial
          | ok r => exact reorgOuter_beside hB hP pb _ pb lb [] [pb] hpb hTl hr
        · rcases hr with rfl | rfl
          · exact queue h1
          · exact h1
      · refine hadd.bind (fun m hm => ?_)
        have hM := mark m hm.1
        refine Out.bind (P := fun r => m.getPendingChild o pb.hash = .ok r) ?_ (fun r hr => ?_)
        · cases h : m.getPendingChild o pb.hash with
          | ok r => rfl
          | error f => trivial
        · cases r with
          | none => exact queue hM
          | some child =>
            simp only []
            split
            · exact queue ⟨hM.inv.of_maps rfl rfl, ⟨hM.room.1, hM.room.2, hM.room.3⟩, hM.init, hM.wl, hM.bl, hM.pend, hM.fin, hM.lastFin, hM.finOnly, hM.weight, hM.head, hM.calm⟩
            · rename_i c hc
              have hc : m.pending.get? child = some c := hc
              obtain ⟨q, hq, hch⟩ : ∃ q, m.queued.get? pb.hash = some q ∧ (child ∈ q.keys ∨ child = Hash.zero) := by
                have := getPendingChild_out (o := o) m pb.hash
                rw [hr] at this
                exact this
              obtain ⟨g1, g2, g3, g4⟩ := hM.inv.child (hR.mono (fun b hb => hb.imp (hpre b) id)).hashed hq hch hc
              have hSt : St c := by
                refine g3.resolve_left (fun h => ?_)
                exact (hB.apart c pb (hpre c h) hpb).2.2 g1
              refine (ih (s := { m with tick := m.tick + 1 }) true ⟨hM.inv.of_maps rfl rfl, ⟨hM.room.1, hM.room.2, hM.room.3⟩, hM.init, hM.wl, hM.bl, hM.pend, hM.fin, hM.lastFin,
                hM.finOnly, hM.weight, hM.head, hM.calm⟩ hSt).bind (fun s' h' => ?_)
              exact queue h'
    · unfold OMP.onUnconnected
      split
      case isFalse => exact queue h1
      split
      · refine ⟨h1.inv.erase _, ⟨hs.room.1, hs.room.2, hs.room.3⟩, hs.init, hs.wl, hs.bl, ?_, hs.fin, hs.lastFin, hs.finOnly, hs.weight, hs.head, hs.calm⟩
        intro b hb
        simp only []
        rw [GMap.get?_erase, if_neg (fun e => (hB.apart b pb (hpre b hb) hpb).1 e.symm)]
        exact h1.pend b hb
      · exact hadd.bind (fun m hm => queue (mark m hm.1))

/-- The blocks of the tree hang together above the root. -/
structure RootedIn (W : World) (root : Hash) (In : PB → Prop) (pending : GMap Hash PB) : Prop where
  filed : ∀ h b, pending.get? h = some b → b.hash = h ∧ W.Has b ∧ W.Numbered b
  up : ∀ h b, pending.get? h = some b → In b → h = root ∨ ∃ p, pending.get? b.parentHash = some p ∧ In p
  low : ∀ h b, pending.get? h = some b → In b → h = root ∨ W.number root < W.number h

theorem reorgInner_findsIn {In : PB → Prop} {pending : GMap Hash PB} (hP : RootedIn W root In pending) (m : Int) (hm : W.number root ≤ m)
    (n : Nat) (head : PB) (bs : List PB) (hh : pending.get? head.hash = some head) (hi : In head) (hne : head.hash ≠ root)
    {r : Option (PB × List PB)} (hr : reorgInner pending m n head bs = .ok r) :
    ∃ head' bs', r = some (head', bs') ∧ pending.get? head'.hash = some head' ∧ In head' ∧ head'.hash ≠ root ∧ head'.number ≤ m + 1 := by
  induction n generalizing head bs with
  | zero => simp [reorgInner] at hr
  | succ n ih =>
    unfold reorgInner at hr
    split at hr
    · rename_i hgt
      obtain ⟨p', hp', hin⟩ := (hP.up _ _ hh hi).resolve_left hne
      split at hr
      · rename_i hp
        rw [hp] at hp'; simp at hp'
      · rename_i p hp
        rw [hp] at hp'
        cases hp'
        obtain ⟨e1, e2, e3⟩ := hP.filed _ _ hp
        obtain ⟨_, f2, f3⟩ := hP.filed _ _ hh
        refine ih p' _ (by rw [e1]; exact hp) hin ?_ hr
        intro e
        have := f2.number
        unfold World.Numbered at f3
        rw [← e1, e] at f3
        omega
    · rename_i hle
      simp only [Except.ok.injEq] at hr
      exact ⟨head, bs, hr.symm, hh, hi, hne, by omega⟩

theorem reorgOuter_findsIn {In : PB → Prop} {pending : GMap Hash PB} (hP : RootedIn W root In pending) (start : PB) (n : Nat) (head old : PB)
    (rev bs : List PB) (hh : pending.get? head.hash = some head) (hi : In head) (hne : head.hash ≠ root) (ho : pending.get? old.hash = some old) (hoi : In old)
    {r : ReorgResult} (hr : reorgOuter pending start n head old rev bs = .ok r) : ∃ removed added, r = .ok removed added := by
  induction n generalizing head old rev bs with
  | zero => simp [reorgOuter] at hr
  | succ n ih =>
    unfold reorgOuter at hr
    obtain ⟨r1, h1, h2⟩ := bind_ok.mp hr
    have hlow : W.number root ≤ old.number := by
      rw [(hP.filed _ _ ho).2.1.number]
      rcases hP.low _ _ ho hoi with e | e
      · rw [e]; exact Int.le_refl _
      · omega
    obtain ⟨head', bs', rfl, h3, hi', h4, h5⟩ := reorgInner_findsIn hP old.number hlow _ head bs hh hi hne h1
    simp only [] at h2
    split at h2
    · simp only [Except.ok.injEq] at h2
      exact ⟨_, _, h2.symm⟩
    · rename_i hneq
      have hnr : old.hash ≠ root := by
        intro hroot
        obtain ⟨p, hpp, hpi⟩ := (hP.up _ _ h3 hi').resolve_left h4
        obtain ⟨g1, _, _⟩ := hP.filed _ _ hpp
        obtain ⟨_, f2, f3⟩ := hP.filed _ _ h3
        unfold World.Numbered at f3
        have e1 := f2.number
        have e2 := (hP.filed _ _ ho).2.1.number
        rw [hroot] at e2
        rcases hP.low _ _ hpp hpi with e | e
        · exact (hneq (hroot.trans e.symm)).elim
        · omega
      obtain ⟨p, hpp, hpi⟩ := (hP.up _ _ ho hoi).resolve_left hnr
      split at h2
      · rename_i hp
        rw [hp] at hpp; simp at hpp
      · rename_i old' hp
        rw [hp] at hpp
        cases hpp
        have := hP.filed _ _ hp
        exact ih head' p _ _ h3 hi' h4 (by rw [this.1]; exact hp) hpi h2

/-- A block of the tree. -/
theorem mixed_tree (hB : Beside last Tr St) (hR : Regular W U (fun b => Tr b ∨ St b)) (hpre : ∀ b ∈ pre, Tr b) (hT : Tr pb)
    (hL : PFList W root pre) (hs : Mixed W U wl last St pre s) (hF : ¬ Forbidden wl pb)
    (hpf : pb.hash = root ∨ ∃ a ∈ pre, a.hash = pb.parentHash) (hlight : pb.hash = last ∨ pb.weight < W.weight last ∨ last ∈ hashes pre) :
    Out (fun _ => True) (Mixed W U wl last St (pre ++ [pb])) (s.handle o pb) := by
  have hpbD : pb ∈ pre ++ [pb] := by simp
  have sub : ∀ b, b ∈ pre → b ∈ pre ++ [pb] := fun b hb => by simp [hb]
  have hpre' : ∀ b ∈ pre ++ [pb], Tr b := by
    intro b hb
    rcases List.mem_append.mp hb with hb | hb
    · exact hpre b hb
    · rw [List.mem_singleton.mp hb]; exact hT
  have hR' : Regular W U (fun b => b ∈ pre ++ [pb] ∨ St b) := hR.mono (fun b hb => hb.imp (hpre' b) id)
  have hD : (fun b => b ∈ pre ++ [pb] ∨ St b) pb := .inl hpbD
  have hwt : ∀ b ∈ pre ++ [pb], b.weight = W.weight b.hash := fun b hb => (hR'.has b (.inl hb)).weight
  have hsame : ∀ a ∈ pre, ∀ b ∈ pre, a.hash = b.hash → a.weight = b.weight := by
    intro a ha b hb e; rw [hwt a (sub a ha), hwt b (sub b hb), e]
  unfold OMP.handle OMP.handleAux
  rw [not_excluded hs hF]
  simp only [Bool.false_eq_true, if_false]
  have hI1 : OInv (fun b => b ∈ pre ++ [pb] ∨ St b) { s with pending := s.pending.insert pb.hash pb } :=
    (hs.inv.mono (fun b hb => hb.imp (sub b) id)).insert hD
  have hpend1 : ∀ b ∈ pre ++ [pb], ∃ b', (s.pending.insert pb.hash pb).get? b.hash = some b' := by
    intro b hb
    rw [GMap.get?_insert]
    split
    · exact ⟨_, rfl⟩
    · rename_i hne
      rcases List.mem_append.mp hb with hb | hb
      · exact hs.pend b hb
      · exact (hne (by rw [List.mem_singleton.mp hb])).elim
  have hroom1 : Room U { s with pending := s.pending.insert pb.hash pb } := ⟨hs.room.1, hs.room.2, hs.room.3⟩
  have hlastIn : last ∈ hashes pre → last ∈ hashes (pre ++ [pb]) := fun h => by rw [hashes_append]; simp [h]
  -- how the pieces of the new invariant come together
  have build : ∀ (m : OMP), OInv (fun b => b ∈ pre ++ [pb] ∨ St b) m → Room U m → m.initEmpty = false → m.whitelist = wl →
      (∀ h, m.blacklist.contains h = false) → m.pending = s.pending.insert pb.hash pb →
      (∀ x ∈ s.finished.items, x ∈ m.finished.items) → pb.hash ∈ m.finished.items →
      (∀ x ∈ m.finished.items, x = last ∨ x ∈ hashes (pre ++ [pb]) ∨ Known St x) → m.lastWeight = W.weight m.lastHash →
      ((last ∉ hashes (pre ++ [pb]) ∧ (∀ b ∈ pre ++ [pb], b.weight < W.weight last) ∧ m.lastHash = last ∧ m.log = []) ∨
        (last ∈ hashes (pre ++ [pb]) ∧ FirstHeaviest (pre ++ [pb]) m.lastHash)) → (∀ n, OOut.evictOlder n ∉ m.log) →
      Mixed W U wl last St (pre ++ [pb]) m := by
    intro m a1 a2 a3 a4 a5 a6 a7 a8 a9 a10 a11 a12
    refine ⟨a1, a2, a3, a4, a5, by rw [a6]; exact hpend1, ?_, a7 _ hs.lastFin, a9, a10, a11, a12⟩
    intro b hb
    rcases List.mem_append.mp hb with hb | hb
    · exact a7 _ (hs.fin b hb)
    · rw [List.mem_singleton.mp hb]; exact a8
  have finOnly1 : ∀ (F : Hash → Prop) (a m : OMP), a.finished = s.finished → Mark U F a m → (∀ x, F x → Known (fun b => b ∈ pre ++ [pb] ∨ St b) x) →
      ∀ x ∈ m.finished.items, x = last ∨ x ∈ hashes (pre ++ [pb]) ∨ Known St x := by
    intro F a m ha hm hF x hx
    rcases hm.shrink.finished x hx with h | h
    · rw [ha] at h
      rw [hashes_append]
      exact (hs.finOnly x h).imp id (fun h => h.imp (fun h => by simp [h]) id)
    · obtain ⟨b, hb | hb, e⟩ := hF x h
      · exact .inr (.inl (e ▸ mem_hashes hb))
      · exact .inr (.inr ⟨b, hb, e⟩)
  unfold OMP.accept
  split
  · -- the hash is known
    rename_i hfin
    have hfin : pb.hash ∈ s.finished.items := by simpa [LRU.contains] using hfin
    refine build _ hI1 hroom1 hs.init hs.wl hs.bl rfl (fun x hx => hx) hfin ?_ hs.weight ?_ hs.calm
    · exact finOnly1 (fun _ => False) { s with pending := s.pending.insert pb.hash pb } _ rfl (Mark.refl hroom1) (fun _ h => h.elim)
    · have hkn : pb.hash = last ∨ pb.hash ∈ hashes pre := by
        rcases hs.finOnly _ hfin with e | e | ⟨b, hb, e⟩
        · exact .inl e
        · exact .inr e
        · exact ((hB.apart pb b hT hb).1 e.symm).elim
      rcases hs.head with ⟨k1, k2, k3, k4⟩ | ⟨k1, hf⟩
      · by_cases e : pb.hash = last
        · right
          rw [hashes_append]
          refine ⟨by simp [hashes, e], ?_⟩
          simp only []
          rw [k3, ← e]
          refine firstHeaviest_new (fun b hb => ?_)
          rw [hwt pb hpbD, e]
          exact k2 b hb
        · left
          have hin := hkn.resolve_left e
          obtain ⟨x, hx, ex⟩ := List.mem_map.mp hin
          refine ⟨?_, ?_, k3, k4⟩
          · rw [hashes_append]
            intro h
            rcases List.mem_append.mp h with h | h
            · exact k1 h
            · simp [hashes] at h; exact e h.symm
          · intro b hb
            rcases List.mem_append.mp hb with hb | hb
            · exact k2 b hb
            · rw [List.mem_singleton.mp hb, hwt pb hpbD, ← ex, ← hwt x (sub x hx)]
              exact k2 x hx
      · right
        have hin : pb.hash ∈ hashes pre := hkn.elim (fun e => e ▸ k1) id
        obtain ⟨x, hx, ex⟩ := List.mem_map.mp hin
        obtain ⟨l1, b, l2, h1, h2, h3, h4⟩ := hf
        refine ⟨hlastIn k1, firstHeaviest_old ⟨l1, b, l2, h1, h2, h3, h4⟩ ⟨b, by rw [h1]; simp, h2, ?_⟩ hsame⟩
        rw [hwt pb hpbD, ← ex, ← hwt x (sub x hx)]
        exact h3 x hx
  · rename_i hfin
    have hnew : pb.hash ∉ s.finished.items := by simpa [LRU.contains] using hfin
    have hnl : pb.hash ≠ last := fun e => hnew (e ▸ hs.lastFin)
    have hnp : pb.hash ∉ hashes pre := by
      intro h
      obtain ⟨x, hx, ex⟩ := List.mem_map.mp h
      exact hnew (ex ▸ hs.fin x hx)
    have hL' := hL.snoc (hR'.numbered pb hD) hpf
    -- nothing waits on the new block
    have hq : s.queued.get? pb.hash = none := by
      cases hg : s.queued.get? pb.hash with
      | none => rfl
      | some q =>
        obtain ⟨c, hc⟩ := hs.inv.ne _ _ hg
        obtain ⟨b, hb' | hb', e1, e2⟩ := hs.inv.que _ _ _ hg hc
        · rcases hL.up b hb' with e | e
          · have := hR'.numbered b (.inl (sub b hb'))
            unfold World.Numbered at this
            rw [e, e2] at this
            rcases hL'.low pb hpbD with e3 | e3
            · rw [e3] at this; omega
            · omega
          · rw [e2] at e; exact (hnp e).elim
        · exact ((hB.apart pb b hT hb').2.1 e2).elim
    have hadd := (finAdd_mark (o := o) { s with pending := s.pending.insert pb.hash pb } hroom1 (hR'.inU pb hD)).mono (E' := fun _ => True)
      (fun _ h => trivial) (fun _ h => h)
    rcases hs.head with ⟨k1, k2, k3, k4⟩ | ⟨k1, l1, hb, l2, h1, h2, h3, h4⟩
    · -- before the stored block
      have hlt : pb.weight < W.weight last := by
        rcases hlight with e | e | e
        · exact (hnl e).elim
        · exact e
        · exact (k1 e).elim
      have hup : pb.parentHash ≠ last := by
        intro e
        have := hR'.heavier pb hD
        unfold World.Heavier at this
        rw [e, ← hwt pb hpbD] at this
        omega
      have marked : ∀ m : OMP, Mark U (· = pb.hash) { s with pending := s.pending.insert pb.hash pb } m → pb.hash ∈ m.finished.items →
          Mixed W U wl last St (pre ++ [pb]) (m.queue pb) := by
        intro m hm hmf
        refine build _ ((hI1.of_maps hm.pending hm.queued).queue hD) ⟨hm.room.1, hm.room.2, hm.room.3⟩ (hm.shrink.initEmpty.trans hs.init)
          (hm.shrink.whitelist.trans hs.wl) (fun h => by simp only [OMP.queue]; rw [hm.shrink.blacklist]; exact hs.bl h) hm.pending
          (fun x hx => hm.mono x hx) hmf (finOnly1 _ { s with pending := s.pending.insert pb.hash pb } m rfl hm (fun x hx => ⟨pb, hD, hx.symm⟩)) ?_ (.inl ⟨?_, ?_, ?_, ?_⟩) ?_
        · simp only [OMP.queue]; rw [hm.shrink.lastWeight, hm.shrink.lastHash]; exact hs.weight
        · rw [hashes_append]
          intro h
          rcases List.mem_append.mp h with h | h
          · exact k1 h
          · simp [hashes] at h; exact hnl h.symm
        · intro b hb
          rcases List.mem_append.mp hb with hb | hb
          · exact k2 b hb
          · rw [List.mem_singleton.mp hb]; exact hlt
        · simp only [OMP.queue]; rw [hm.shrink.lastHash]; exact k3
        · simp only [OMP.queue]; rw [hm.log]; exact k4
        · simp only [OMP.queue]; rw [hm.log]; exact hs.calm
      rw [if_neg (by rw [k3]; exact hup), if_neg (by simp [hs.init])]
      have hlw : s.lastWeight = W.weight last := by rw [hs.weight, k3]
      by_cases hpar : s.finished.contains pb.parentHash = true
      · rw [if_pos hpar]
        unfold OMP.onConnected
        have hlight' : decide (s.lastWeight < pb.weight) = false := by
          rw [hlw]; simp only [decide_eq_false_iff_not]; omega
        split
        · rename_i hh; rw [hlight'] at hh; simp at hh
        · refine hadd.bind (fun m h2' => ?_)
          obtain ⟨hm, hmf⟩ := h2'
          have hg : m.getPendingChild o pb.hash = .ok none := by
            unfold OMP.getPendingChild
            rw [hm.queued]; simp only [hq]
          rw [hg]
          exact marked m hm hmf
      · rw [if_neg hpar]
        have hpre0 : pre = [] := by
          rcases hpf with e | ⟨a, ha, e⟩
          · rcases hL.first with h | h
            · exact h
            · rw [← e] at h; exact (hnp h).elim
          · refine (hpar ?_).elim
            simp only [LRU.contains, decide_eq_true_eq]
            rw [← e]; exact hs.fin a ha
        unfold OMP.onUnconnected
        rw [if_pos (by rw [hlw]; exact hlt)]
        have hold : OMP.tooOld { s with pending := s.pending.insert pb.hash pb } pb = false := by
          unfold OMP.tooOld
          have : (s.pending.insert pb.hash pb).get? s.lastHash = none := by
            rw [k3, GMap.get?_insert, if_neg (fun e => hnl e)]
            cases hg : s.pending.get? last with
            | none => rfl
            | some b =>
              obtain ⟨e, hb | hb⟩ := hs.inv.pend _ _ hg
              · rw [hpre0] at hb; simp at hb
              · exact ((hB.last b hb).1 e).elim
          simp only [this]
        rw [hold]
        simp only [Bool.false_eq_true, if_false]
        exact hadd.bind (fun m h2' => marked m h2'.1 h2'.2)
    · -- after it
      have hhb : hb ∈ pre := by rw [h1]; simp
      have hne : pre ≠ [] := fun e => by rw [e] at hhb; simp at hhb
      have hrootFin : root ∈ s.finished.items := by
        obtain ⟨x, hx, ex⟩ := List.mem_map.mp (hL.first.resolve_left hne)
        exact ex ▸ hs.fin x hx
      have hnr : pb.hash ≠ root := fun e => hnew (e ▸ hrootFin)
      obtain ⟨par, hpar, epar⟩ : ∃ a ∈ pre, a.hash = pb.parentHash := hpf.resolve_left hnr
      have hlw : s.lastWeight = hb.weight := by rw [hs.weight, ← h2, hwt hb (sub hb hhb)]
      split
      · rename_i hlast
        simp only [] at hlast
        have hheavy := hR'.heavier pb hD
        unfold World.Heavier at hheavy
        rw [hlast, ← hs.weight, ← hwt pb hpbD, hlw] at hheavy
        refine ((prepareEmit_stop (o := o) hR' { s with pending := s.pending.insert pb.hash pb } [pb] [] hI1 hroom1 (pre := []) rfl hD hq).mono (E' := fun _ => True)
          (fun _ _ => trivial) (fun _ h => h)).imp ?_
        rintro s' ⟨m, hm, hmf, rfl⟩
        refine build _ (hI1.of_maps hm.pending hm.queued) ⟨hm.room.1, hm.room.2, hm.room.3⟩ (hm.shrink.initEmpty.trans hs.init)
          (hm.shrink.whitelist.trans hs.wl) (fun h => by simp only []; rw [hm.shrink.blacklist]; exact hs.bl h) hm.pending
          (fun x hx => hm.mono x hx) hmf (finOnly1 _ { s with pending := s.pending.insert pb.hash pb, lastHash := pb.hash, lastWeight := pb.weight }
            m rfl hm (fun _ h => h)) ?_ (.inr ⟨hlastIn k1, ?_⟩) (fun n hn => by
              have hn : OOut.evictOlder n ∈ m.log ++ [_] := hn
              rw [hm.log] at hn
              rcases List.mem_append.mp hn with hn | hn
              · exact hs.calm n hn
              · simp at hn)
        · simp only []; rw [hm.shrink.lastWeight, hm.shrink.lastHash]; exact hwt pb hpbD
        · simp only []; rw [hm.shrink.lastHash]
          exact firstHeaviest_new (fun b hb' => Nat.lt_of_le_of_lt (h3 b hb') hheavy)
      · rw [if_neg (by simp [hs.init])]
        have hpf' : s.finished.contains pb.parentHash = true := by
          simp only [LRU.contains, decide_eq_true_eq]
          rw [← epar]; exact hs.fin par hpar
        rw [if_pos hpf']
        obtain ⟨lb, hlb⟩ := hpend1 hb (sub hb hhb)
        rw [h2] at hlb
        obtain ⟨hlbh, hlbD⟩ := hI1.pend _ _ hlb
        have hlbIn : lb ∈ pre ++ [pb] := by
          refine hlbD.resolve_right (fun h => ?_)
          exact (hB.apart hb lb (hpre hb hhb) h).1 (h2.trans hlbh.symm)
        unfold OMP.onConnected
        simp only [hlb]
        by_cases hlt : s.lastWeight < pb.weight
        · simp only [hlt, decide_true]
          have hP : RootedIn W root (· ∈ pre ++ [pb]) (s.pending.insert pb.hash pb) := by
            refine ⟨?_, ?_, ?_⟩
            · intro h b hb'
              obtain ⟨e1, e2⟩ := hI1.pend h b hb'
              exact ⟨e1, hR'.has b e2, hR'.numbered b e2⟩
            · intro h b hb' hin
              obtain ⟨e1, _⟩ := hI1.pend h b hb'
              rcases hL'.up b hin with e | e
              · exact .inl (e1.symm.trans e)
              · obtain ⟨x, hx, ex⟩ := List.mem_map.mp e
                obtain ⟨p, hp⟩ := hpend1 x hx
                refine .inr ⟨p, by rw [← ex]; exact hp, ?_⟩
                obtain ⟨f1, f2⟩ := hI1.pend _ _ hp
                exact f2.resolve_right (fun h => (hB.apart x p (hpre' x hx) h).1 f1.symm)
            · intro h b hb' hin
              obtain ⟨e1, _⟩ := hI1.pend h b hb'
              rw [← e1]
              exact hL'.low b hin
          obtain ⟨r, hr, hspec⟩ := (prepareReorg_spec (W := W) (pending := s.pending.insert pb.hash pb) (D := fun b => b ∈ pre ++ [pb] ∨ St b) hI1.pendKeys
            (fun h b hb' => (hI1.pend h b hb').2) hR'.numbered pb lb hD).total
          rw [hr]
          obtain ⟨removed, added, rfl⟩ := reorgOuter_findsIn hP pb _ pb lb _ _ (by simp) hpbD hnr (by rw [hlbh]; exact hlb) hlbIn hr
          obtain ⟨p, hk⟩ := hspec.1 _ _ rfl
          obtain ⟨pre', hpre'⟩ := hk.last
          refine ((prepareEmit_stop (o := o) hR' { s with pending := s.pending.insert pb.hash pb } added removed hI1 hroom1 hpre' hD hq).mono (E' := fun _ => True)
            (fun _ _ => trivial) (fun _ h => h)).imp ?_
          rintro s' ⟨m, hm, hmf, rfl⟩
          refine build _ (hI1.of_maps hm.pending hm.queued) ⟨hm.room.1, hm.room.2, hm.room.3⟩ (hm.shrink.initEmpty.trans hs.init)
            (hm.shrink.whitelist.trans hs.wl) (fun h => by simp only []; rw [hm.shrink.blacklist]; exact hs.bl h) hm.pending
            (fun x hx => hm.mono x hx) hmf (finOnly1 _ { s with pending := s.pending.insert pb.hash pb, lastHash := pb.hash, lastWeight := pb.weight }
              m rfl hm (fun _ h => h)) ?_ (.inr ⟨hlastIn k1, ?_⟩) (fun n hn => by
              have hn : OOut.evictOlder n ∈ m.log ++ [_] := hn
              rw [hm.log] at hn
              rcases List.mem_append.mp hn with hn | hn
              · exact hs.calm n hn
              · simp at hn)
          · simp only []; rw [hm.shrink.lastWeight, hm.shrink.lastHash]; exact hwt pb hpbD
          · simp only []; rw [hm.shrink.lastHash]
            rw [hlw] at hlt
            exact firstHeaviest_new (fun b hb' => Nat.lt_of_le_of_lt (h3 b hb') hlt)
        · simp only [hlt, decide_false]
          refine hadd.bind (fun m h2' => ?_)
          obtain ⟨hm, hmf⟩ := h2'
          have hg : m.getPendingChild o pb.hash = .ok none := by
            unfold OMP.getPendingChild
            rw [hm.queued]; simp only [hq]
          rw [hg]
          refine build _ ((hI1.of_maps hm.pending hm.queued).queue hD) ⟨hm.room.1, hm.room.2, hm.room.3⟩ (hm.shrink.initEmpty.trans hs.init)
            (hm.shrink.whitelist.trans hs.wl) (fun h => by simp only [OMP.queue]; rw [hm.shrink.blacklist]; exact hs.bl h) hm.pending
            (fun x hx => hm.mono x hx) hmf (finOnly1 _ { s with pending := s.pending.insert pb.hash pb } m rfl hm
              (fun x hx => ⟨pb, hD, hx.symm⟩)) ?_ (.inr ⟨hlastIn k1, ?_⟩) (fun n hn => by
                have hn : OOut.evictOlder n ∈ m.log := hn
                rw [hm.log] at hn
                exact hs.calm n hn)
          · simp only [OMP.queue]; rw [hm.shrink.lastWeight, hm.shrink.lastHash]; exact hs.weight
          · simp only [OMP.queue]; rw [hm.shrink.lastHash]
            exact firstHeaviest_old ⟨l1, hb, l2, h1, h2, h3, h4⟩ ⟨hb, hhb, h2, by rw [← hlw]; omega⟩ hsame

open Classical in
/-- Blocks of the tree, parents first and the stored block before those at least as heavy, and others anywhere between them. -/
theorem mixed_run (hB : Beside last Tr St) (hR : Regular W U (fun b => Tr b ∨ St b)) (hF : ∀ b, Tr b ∨ St b → ¬ Forbidden wl b) {post : List PB} :
    ∀ {pre : List PB} {s s' : OMP}, (∀ b ∈ pre, Tr b) → (∀ b ∈ post, Tr b ∨ St b) → PFList W root pre → Mixed W U wl last St pre s →
    (∀ l1 b l2, post = l1 ++ b :: l2 → Tr b → b.hash = root ∨ ∃ a ∈ pre ++ l1, Tr a ∧ a.hash = b.parentHash) →
    (∀ l1 b l2, post = l1 ++ b :: l2 → Tr b → b.hash = last ∨ b.weight < W.weight last ∨ ∃ a ∈ pre ++ l1, Tr a ∧ a.hash = last) →
    s.run o (post.map OOp.block) = .ok s' → Mixed W U wl last St (pre ++ post.filter (fun b => decide (Tr b))) s' := by
  induction post with
  | nil => intro pre s s' _ _ _ h _ _ hr; cases hr; simpa using h
  | cons b post ih =>
    intro pre s s' hpre hpost hL hs hpf hlt hr
    unfold OMP.run at hr
    rw [List.map_cons, List.foldlM_cons] at hr
    obtain ⟨s1, hr1, hr2⟩ := bind_ok.mp hr
    have hr1 : s.handle o b = .ok s1 := hr1
    have h1 := hpf [] b post rfl
    have h2 := hlt [] b post rfl
    simp only [List.append_nil] at h1 h2
    by_cases hb : Tr b
    · have hpar : b.hash = root ∨ ∃ a ∈ pre, a.hash = b.parentHash := (h1 hb).imp id (fun ⟨a, ha, _, e⟩ => ⟨a, ha, e⟩)
      have hstep := mixed_tree (o := o) hB hR hpre hb hL hs (hF b (.inl hb)) hpar ((h2 hb).imp id (fun h => h.imp id (fun ⟨a, ha, _, e⟩ => e ▸ mem_hashes ha)))
      rw [hr1] at hstep
      have := ih (pre := pre ++ [b]) (fun x hx => by
        rcases List.mem_append.mp hx with h | h
        · exact hpre x h
        · rw [List.mem_singleton.mp h]; exact hb) (fun x hx => hpost x (by simp [hx])) (hL.snoc (hR.numbered b (.inl hb)) hpar) hstep
        (fun l1 x l2 e => by have := hpf (b :: l1) x l2 (by rw [e]; rfl); simpa using this)
        (fun l1 x l2 e => by have := hlt (b :: l1) x l2 (by rw [e]; rfl); simpa using this) hr2
      rw [List.filter_cons_of_pos (by simpa using hb)]
      simpa using this
    · have hst : St b := (hpost b (by simp)).resolve_left hb
      have hstep := mixed_stray (o := o) hB hR hpre (fun x hx => hF x (.inr hx)) (s.queued.size + 2) false hs hst
      unfold OMP.handle at hr1
      rw [hr1] at hstep
      rw [List.filter_cons_of_neg (by simpa using hb)]
      refine ih hpre (fun x hx => hpost x (by simp [hx])) hL hstep ?_ ?_ hr2
      · intro l1 x l2 e ht
        refine (hpf (b :: l1) x l2 (by rw [e]; rfl) ht).imp id ?_
        rintro ⟨a, ha, hta, ea⟩
        refine ⟨a, ?_, hta, ea⟩
        rcases List.mem_append.mp ha with h | h
        · simp [h]
        · rcases List.mem_cons.mp h with rfl | h
          · exact (hb hta).elim
          · simp [h]
      · intro l1 x l2 e ht
        refine (hlt (b :: l1) x l2 (by rw [e]; rfl) ht).imp id (fun h => h.imp id ?_)
        rintro ⟨a, ha, hta, ea⟩
        refine ⟨a, ?_, hta, ea⟩
        rcases List.mem_append.mp ha with h | h
        · simp [h]
        · rcases List.mem_cons.mp h with rfl | h
          · exact (hb hta).elim
          · simp [h]

theorem split_filter {α : Type} {p : α → Bool} {l : List α} {l1 : List α} {m : α} {l2 : List α} (h : l.filter p = l1 ++ m :: l2) :
    ∃ a b, l = a ++ m :: b ∧ a.filter p = l1 ∧ p m = true := by
  induction l generalizing l1 with
  | nil => simp at h
  | cons x l ih =>
    by_cases hp : p x = true
    · rw [List.filter_cons_of_pos hp] at h
      cases l1 with
      | nil =>
        simp only [List.nil_append, List.cons.injEq] at h
        obtain ⟨rfl, -⟩ := h
        exact ⟨[], l, rfl, rfl, hp⟩
      | cons y l1 =>
        simp only [List.cons_append, List.cons.injEq] at h
        obtain ⟨rfl, h⟩ := h
        obtain ⟨a, b, rfl, h2, h3⟩ := ih h
        exact ⟨x :: a, b, rfl, by rw [List.filter_cons_of_pos hp, h2], h3⟩
    · rw [List.filter_cons_of_neg hp] at h
      obtain ⟨a, b, rfl, h2, h3⟩ := ih h
      exact ⟨x :: a, b, rfl, by rw [List.filter_cons_of_neg hp, h2], h3⟩

/-- The first heaviest block of some of the blocks is that of all, if the others are lighter than one of the former. -/
theorem firstHeaviest_filter {p : PB → Bool} {l : List PB} {h : Hash} (hf : FirstHeaviest (l.filter p) h) {w : Nat} (hw : ∃ b ∈ l, p b = true ∧ w ≤ b.weight)
    (hl : ∀ b ∈ l, p b = false → b.weight < w) : FirstHeaviest l h := by
  obtain ⟨l1, b, l2, h1, h2, h3, h4⟩ := hf
  obtain ⟨a, c, e, e1, hpb⟩ := split_filter h1
  obtain ⟨x, hx, hpx, hwx⟩ := hw
  have hbw : w ≤ b.weight := Nat.le_trans hwx (h3 x (List.mem_filter.mpr ⟨hx, hpx⟩))
  refine ⟨a, b, c, e, h2, ?_, ?_⟩
  · intro y hy
    cases hp : p y with
    | true => exact h3 y (List.mem_filter.mpr ⟨hy, hp⟩)
    | false => have := hl y hy hp; omega
  · intro y hy
    cases hp : p y with
    | true => exact h4 y (by rw [← e1]; exact List.mem_filter.mpr ⟨hy, hp⟩)
    | false => have := hl y (by rw [e]; simp [hy]) hp; omega

end

end Verif
