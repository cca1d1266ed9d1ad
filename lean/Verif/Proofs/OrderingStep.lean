import Verif.Proofs.OrderingBase
/-! What one call of the ordering layer can do. -/
namespace Verif
open Spec

/-- Some block satisfying `D` has this hash. -/
def Known (D : PB → Prop) (h : Hash) : Prop := ∃ b, D b ∧ b.hash = h

/-- `pending` holds blocks under their hashes, `queued` holds hashes under their parents. -/
structure OInv (D : PB → Prop) (s : OMP) : Prop where
  pend : ∀ h b, s.pending.get? h = some b → b.hash = h ∧ D b
  que : ∀ p q c, s.queued.get? p = some q → c ∈ q.keys → ∃ b, D b ∧ b.hash = c ∧ b.parentHash = p
  ne : ∀ p q, s.queued.get? p = some q → ∃ c, c ∈ q.keys

variable {D : PB → Prop} {o : MapOrder}

theorem OInv.pendKeys {s : OMP} (h : OInv D s) : PendKeys s := fun x b hx => (h.pend x b hx).1

theorem OInv.shrink {F : Hash → Prop} {s s' : OMP} (h : OInv D s) (hs : Shrink F s s') : OInv D s' :=
  ⟨fun x b hx => h.pend x b (hs.pending x b hx), fun p q c hq hc => h.que p q c (hs.queued p q hq) hc,
    fun p q hq => h.ne p q (hs.queued p q hq)⟩

theorem OInv.of_maps {s s' : OMP} (h : OInv D s) (h1 : s'.pending = s.pending) (h2 : s'.queued = s.queued) : OInv D s' :=
  ⟨by rw [h1]; exact h.pend, by rw [h2]; exact h.que, by rw [h2]; exact h.ne⟩

theorem OInv.insert {s : OMP} (h : OInv D s) {pb : PB} (hD : D pb) :
    OInv D { s with pending := s.pending.insert pb.hash pb } := by
  refine ⟨?_, h.que, h.ne⟩
  intro x b hx
  simp only [GMap.get?_insert] at hx
  split at hx
  · rename_i e; cases hx; exact ⟨e, hD⟩
  · exact h.pend _ _ hx

theorem OInv.erase {s : OMP} (h : OInv D s) (k : Hash) : OInv D { s with pending := s.pending.erase k } :=
  ⟨fun x b hx => h.pend x b (Sub.erase _ _ _ _ hx), h.que, h.ne⟩

theorem mem_keys_insert {V : Type} {m : GMap Hash V} {k x : Hash} {v : V} :
    x ∈ (m.insert k v).keys ↔ x = k ∨ x ∈ m.keys := GMap.mem_keys_put

theorem OInv.queue {s : OMP} (h : OInv D s) {pb : PB} (hD : D pb) : OInv D (s.queue pb) := by
  refine ⟨h.pend, ?_, ?_⟩
  · intro p q c hq hc
    simp only [OMP.queue, GMap.get?_insert] at hq
    split at hq
    · rename_i e
      cases hq
      rcases mem_keys_insert.mp hc with hc | hc
      · exact ⟨pb, hD, hc.symm, e⟩
      · cases hg : s.queued.get? pb.parentHash with
        | none => rw [hg] at hc; simp [GMap.keys, GMap.empty] at hc
        | some q0 => rw [hg] at hc; exact e ▸ h.que _ q0 c hg hc
    · exact h.que _ _ _ hq hc
  · intro p q hq
    simp only [OMP.queue, GMap.get?_insert] at hq
    split at hq
    · cases hq; exact ⟨pb.hash, mem_keys_insert.mpr (.inl rfl)⟩
    · exact h.ne _ _ hq

theorem finishChildren_shrink (n : Nat) (s : OMP) (h : Hash) (hI : OInv D s) (hk : Known D h) :
    Out (fun _ => True) (Shrink (Known D) s) (OMP.finishPendingChildrenAux o n s h) := by
  induction n generalizing s h with
  | zero => exact trivial
  | succ n ih =>
    unfold OMP.finishPendingChildrenAux
    simp only []
    refine (finAdd_shrink o s hk).bind (fun s1 h1 => ?_)
    split
    · exact h1
    · rename_i children hc
      refine Out.foldlM ?_ (h1.trans (Shrink.tick _ s1 _))
      intro s2 c hm h2
      obtain ⟨b, hb, hbc, _⟩ := hI.que _ _ c hc (mem_ord.mp hm)
      exact (ih s2 c (hI.shrink h2) ⟨b, hb, hbc⟩).imp (fun _ h => h2.trans h)

theorem finishSiblings_shrink (s : OMP) (pb : PB) (hI : OInv D s) :
    Out (fun _ => True) (Shrink (Known D) s) (s.finishSiblings o pb) := by
  unfold OMP.finishSiblings
  split
  · exact Shrink.refl _ s
  · rename_i q hq
    refine Out.foldlM ?_ (Shrink.tick _ s _)
    intro s2 c hm h2
    split
    · obtain ⟨b, hb, hbc, _⟩ := hI.que _ _ c hq (mem_ord.mp hm)
      exact (finishChildren_shrink _ s2 c (hI.shrink h2) ⟨b, hb, hbc⟩).imp (fun _ h => h2.trans h)
    · exact h2

/-- The child found is one of the queued ones, or the zero hash. -/
theorem getPendingChild_out (s : OMP) (h : Hash) :
    Out (fun _ => True) (fun r => match r with
      | none => s.queued.get? h = none
      | some c => ∃ q, s.queued.get? h = some q ∧ (c ∈ q.keys ∨ c = Hash.zero)) (s.getPendingChild o h) := by
  unfold OMP.getPendingChild
  split
  · rename_i hq; exact hq
  · rename_i q hq
    refine Out.bind (P := fun r => r.2 ∈ q.keys ∨ r.2 = Hash.zero) ?_ (fun r hr => ⟨q, hq, hr⟩)
    refine Out.foldlM ?_ (.inr rfl)
    intro acc c hm ha
    refine (out_top _).bind (fun td _ => ?_)
    show _ ∨ _
    split
    · exact .inl (mem_ord.mp hm)
    · exact ha

/-- The weight of the last block. -/
def endWeight : Nat → List PB → Nat
  | w, [] => w
  | _, b :: bs => endWeight b.weight bs

theorem endOf_append (h : Hash) (a b : List PB) : endOf h (a ++ b) = endOf (endOf h a) b := by
  induction a generalizing h with
  | nil => rfl
  | cons x a ih => exact ih _

theorem endWeight_append (h : Nat) (a b : List PB) : endWeight h (a ++ b) = endWeight (endWeight h a) b := by
  induction a generalizing h with
  | nil => rfl
  | cons x a ih => exact ih _

theorem linked_append {h : Hash} {a b : List PB} : Linked h (a ++ b) ↔ Linked h a ∧ Linked (endOf h a) b := by
  induction a generalizing h with
  | nil => simp [Linked, endOf]
  | cons x a ih => simp [Linked, endOf, ih, and_assoc]

theorem Shrink.head {F : Hash → Prop} {s s' : OMP} (h : Shrink F s s') (x : Hash) (w : Nat) :
    Shrink F { s with lastHash := x, lastWeight := w } { s' with lastHash := x, lastWeight := w } :=
  { h with lastHash := rfl, lastWeight := rfl }

/-- Blocks in `D` have non-zero hashes, and the hash determines the parent. -/
structure Hashed (D : PB → Prop) : Prop where
  nz : ∀ b, D b → b.hash ≠ Hash.zero
  parent : ∀ a b, D a → D b → a.hash = b.hash → a.parentHash = b.parentHash

theorem OInv.child {s : OMP} (h : OInv D s) (hH : Hashed D) {p c : Hash} {q : GMap Hash Unit} {pb : PB}
    (hq : s.queued.get? p = some q) (hc : c ∈ q.keys ∨ c = Hash.zero) (hp : s.pending.get? c = some pb) :
    pb.parentHash = p ∧ pb.hash = c ∧ D pb ∧ c ∈ q.keys := by
  obtain ⟨h1, h2⟩ := h.pend _ _ hp
  have hc : c ∈ q.keys := by
    rcases hc with hc | hc
    · exact hc
    · exact (hH.nz pb h2 (h1.trans hc)).elim
  obtain ⟨b, hb, e1, e2⟩ := h.que _ _ c hq hc
  exact ⟨(hH.parent pb b h2 hb (h1.trans e1.symm)).trans e2, h1, h2, hc⟩

/-- The emit loop walks up from the head. -/
structure Walk (D : PB → Prop) (s : OMP) (new : List PB) (r : OMP × List PB) : Prop where
  inv : OInv D r.1
  shrink : Shrink (Known D) { s with lastHash := r.1.lastHash, lastWeight := r.1.lastWeight } r.1
  ext : ∃ ext, r.2 = new ++ ext ∧ (Hashed D → Linked s.lastHash ext) ∧ endOf s.lastHash ext = r.1.lastHash ∧
    endWeight s.lastWeight ext = r.1.lastWeight ∧ ∀ b ∈ ext, D b

theorem emitLoop_out (n : Nat) (s : OMP) (new : List PB) (hI : OInv D s) :
    Out (fun _ => True) (Walk D s new) (OMP.emitLoop o n s new) := by
  induction n generalizing s new with
  | zero => exact trivial
  | succ n ih =>
    unfold OMP.emitLoop
    refine (getPendingChild_out s s.lastHash).bind (fun r hr => ?_)
    split
    · exact ⟨hI, Shrink.refl _ s, [], by simp [Linked, endOf, endWeight]⟩
    · rename_i c
      obtain ⟨q, hq, hc⟩ := hr
      simp only []
      split
      · trivial
      · rename_i pb hp
        have e1 : Hashed D → pb.parentHash = s.lastHash := fun hH => (hI.child hH hq hc hp).1
        obtain ⟨e2, e3⟩ := hI.pend _ _ hp
        refine (finishSiblings_shrink (D := D) { s with tick := s.tick + 1 } pb (hI.of_maps rfl rfl)).bind (fun s1 h1 => ?_)
        have h1 := (Shrink.tick (Known D) s (s.tick + 1)).trans h1
        refine (finAdd_shrink o { s1 with lastHash := pb.hash, lastWeight := pb.weight } (F := Known D) ⟨pb, e3, rfl⟩).bind
          (fun s2 h2 => ?_)
        have h2 := (h1.head pb.hash pb.weight).trans h2
        refine (ih s2 (new ++ [pb]) ((hI.of_maps (s' := { s with lastHash := pb.hash, lastWeight := pb.weight })
          rfl rfl).shrink h2)).imp ?_
        rintro r ⟨hi, hs, ext, e, hl, he, hw, hd⟩
        refine ⟨hi, ?_, pb :: ext, by simp [e], fun hH => ⟨e1 hH, by rw [h2.lastHash] at hl; exact hl hH⟩, ?_, ?_, ?_⟩
        · have := h2.head r.1.lastHash r.1.lastWeight
          exact this.trans hs
        · rw [← he, h2.lastHash]; rfl
        · rw [← hw, h2.lastWeight]; rfl
        · intro b hb
          rcases List.mem_cons.mp hb with hb | hb
          · exact hb ▸ e3
          · exact hd b hb

/-- `s'` is `s` after an update was sent. -/
structure Sent (D : PB → Prop) (s s' : OMP) (new old ext : List PB) : Prop where
  inv : OInv D s'
  whitelist : s'.whitelist = s.whitelist
  blacklist : s'.blacklist = s.blacklist
  initEmpty : s'.initEmpty = s.initEmpty
  cap : s'.finished.cap = s.finished.cap
  linked : Hashed D → Linked (endOf s.lastHash new) ext
  extD : ∀ b ∈ ext, D b
  lastHash : s'.lastHash = endOf s.lastHash (new ++ ext)
  lastWeight : s'.lastWeight = endWeight s.lastWeight (new ++ ext)
  log : ∃ l, OnlyEvicts l ∧ s'.log = s.log ++ l ++ [.update (new ++ ext) old]

theorem getLast_endOf {new : List PB} {b : PB} (h : new.getLast? = some b) (x : Hash) (w : Nat) :
    endOf x new = b.hash ∧ endWeight w new = b.weight := by
  obtain ⟨ys, rfl⟩ := List.getLast?_eq_some_iff.mp h
  rw [endOf_append, endWeight_append]; exact ⟨rfl, rfl⟩

theorem prepareEmit_out (s : OMP) (new old : List PB) (hI : OInv D s) (hD : ∀ b ∈ new, D b) :
    Out (fun _ => True) (fun s' => ∃ ext, Sent D s s' new old ext) (s.prepareEmit o new old) := by
  unfold OMP.prepareEmit
  refine Out.bind (P := fun s1 => Shrink (Known D) { s with lastHash := endOf s.lastHash new, lastWeight := endWeight s.lastWeight new } s1) ?_ ?_
  · unfold OMP.emitStart
    split
    · rename_i hn
      obtain rfl := List.getLast?_eq_none_iff.mp hn
      exact Shrink.refl _ s
    · rename_i newest hn
      have hm : newest ∈ new := List.mem_of_getLast? hn
      obtain ⟨e1, e2⟩ := getLast_endOf hn s.lastHash s.lastWeight
      rw [e1, e2]
      simp only []
      refine (finishSiblings_shrink (D := D) { s with lastHash := newest.hash, lastWeight := newest.weight } newest (hI.of_maps rfl rfl)).bind (fun s1 h1 => ?_)
      exact (finAdd_shrink o s1 (F := Known D) ⟨newest, hD _ hm, rfl⟩).imp (fun _ h => h1.trans h)
  · intro s1 h1
    refine (emitLoop_out _ s1 new ((hI.of_maps (s' := { s with lastHash := endOf s.lastHash new, lastWeight := endWeight s.lastWeight new }) rfl rfl).shrink h1)).bind ?_
    rintro ⟨s2, new2⟩ ⟨hi, hs, ext, e, hl, he, hw, hd⟩
    simp only [] at e hs he hw hi
    obtain ⟨l1, g1, o1, _⟩ := h1.log
    obtain ⟨l2, g2, o2, _⟩ := hs.log
    refine ⟨ext, hi.of_maps rfl rfl, hs.whitelist.trans h1.whitelist, hs.blacklist.trans h1.blacklist,
      hs.initEmpty.trans h1.initEmpty, hs.cap.trans h1.cap, by rw [h1.lastHash] at hl; exact hl, hd, ?_, ?_, l1 ++ l2, o1.append o2, ?_⟩
    · rw [endOf_append, ← he, h1.lastHash]
    · rw [endWeight_append, ← hw, h1.lastWeight]
    · simp [g2, g1, e]

/-- What `prepareReorg` finds: the way down from the old head and from the new head to a common parent. -/
structure Forked (pending : GMap Hash PB) (start old : PB) (removed added : List PB) (p : Hash) : Prop where
  up : Linked p added
  last : ∃ pre, added = pre ++ [start]
  addedIn : ∀ b ∈ added, b = start ∨ ∃ h, pending.get? h = some b
  down : Linked p removed
  tip : endOf p removed = old.hash
  removedIn : ∀ b ∈ removed, b = old ∨ ∃ h, pending.get? h = some b

/-- Pending blocks are filed under their hash. -/
def Filed (pending : GMap Hash PB) : Prop := ∀ h b, pending.get? h = some b → b.hash = h

theorem reorgInner_out {pending : GMap Hash PB} (hf : Filed pending) (start : PB) (m : Int) (n : Nat) (head : PB) (bs : List PB)
    (hl : ∃ rest, bs = head :: rest ∧ Linked head.hash rest) (hlast : ∃ pre, bs = pre ++ [start])
    (hin : ∀ b ∈ bs, b = start ∨ ∃ h, pending.get? h = some b) :
    Out (fun _ => True) (fun r => ∀ head' bs', r = some (head', bs') →
      (∃ rest, bs' = head' :: rest ∧ Linked head'.hash rest) ∧ (∃ pre, bs' = pre ++ [start]) ∧
      (∀ b ∈ bs', b = start ∨ ∃ h, pending.get? h = some b)) (reorgInner pending m n head bs) := by
  induction n generalizing head bs with
  | zero => exact trivial
  | succ n ih =>
    unfold reorgInner
    split
    · split
      · intro _ _ h; simp at h
      · rename_i p hp
        obtain ⟨rest, rfl, hr⟩ := hl
        obtain ⟨pre, hpre⟩ := hlast
        refine ih p _ ⟨_, rfl, ?_⟩ ⟨p :: pre, by rw [hpre]; rfl⟩ ?_
        · exact ⟨(hf _ _ hp).symm, hr⟩
        · intro b hb
          rcases List.mem_cons.mp hb with hb | hb
          · exact .inr ⟨_, hb ▸ hp⟩
          · exact hin b hb
    · intro _ _ h
      simp only [Option.some.injEq, Prod.mk.injEq] at h
      obtain ⟨rfl, rfl⟩ := h
      exact ⟨hl, hlast, hin⟩

theorem reorgOuter_out {pending : GMap Hash PB} (hf : Filed pending) (start old : PB) (n : Nat) (head oldHead : PB)
    (rev bs : List PB) (hl : ∃ rest, bs = head :: rest ∧ Linked head.hash rest) (hlast : ∃ pre, bs = pre ++ [start])
    (hin : ∀ b ∈ bs, b = start ∨ ∃ h, pending.get? h = some b)
    (hr : Linked oldHead.hash rev) (ht : endOf oldHead.hash rev = old.hash)
    (hri : ∀ b ∈ oldHead :: rev, b = old ∨ ∃ h, pending.get? h = some b) :
    Out (fun _ => True) (fun r => ∀ removed added, r = .ok removed added → ∃ p, Forked pending start old removed added p)
      (reorgOuter pending start n head oldHead rev bs) := by
  induction n generalizing head oldHead rev bs with
  | zero => exact trivial
  | succ n ih =>
    unfold reorgOuter
    refine (reorgInner_out hf start oldHead.number (pending.size + 2) head bs hl hlast hin).bind (fun r hr2 => ?_)
    split
    · intro _ _ h; simp at h
    · rename_i head' bs'
      obtain ⟨hl', hlast', hin'⟩ := hr2 _ _ rfl
      split
      · rename_i e
        intro _ _ h
        simp only [ReorgResult.ok.injEq] at h
        obtain ⟨rfl, rfl⟩ := h
        obtain ⟨rest, rfl, hrest⟩ := hl'
        exact ⟨oldHead.hash, ⟨e.symm, hrest⟩, hlast', hin', hr, ht, fun b hb => hri b (by simp [hb])⟩
      · split
        · intro _ _ h; simp at h
        · rename_i old' hp
          refine ih _ old' _ _ hl' hlast' hin' ⟨(hf _ _ hp).symm, hr⟩ ht ?_
          intro b hb
          rcases List.mem_cons.mp hb with hb | hb
          · exact .inr ⟨_, hb ▸ hp⟩
          · exact hri b hb

theorem prepareReorg_out {pending : GMap Hash PB} (hf : Filed pending) (new old : PB) :
    Out (fun _ => True) (fun r => ∀ removed added, r = .ok removed added → ∃ p, Forked pending new old removed added p)
      (prepareReorg pending new old) :=
  reorgOuter_out hf new old _ new old [] [new] ⟨[], rfl, trivial⟩ ⟨[], rfl⟩ (by simp) trivial rfl (by simp)

/-- When a block is missing, the block the call started with is queued. -/
theorem prepareReorg_missing (pending : GMap Hash PB) (new old : PB) :
    Out (fun _ => True) (fun r => ∀ last, r = .missing last → last = new) (prepareReorg pending new old) := by
  unfold prepareReorg
  have : ∀ n head oldHead rev bs, Out (fun _ => True) (fun r => ∀ last, r = .missing last → last = new)
      (reorgOuter pending new n head oldHead rev bs) := by
    intro n
    induction n with
    | zero => intros; exact trivial
    | succ n ih =>
      intro head oldHead rev bs
      unfold reorgOuter
      refine (out_top _).bind (fun r _ => ?_)
      split
      · intro _ h; simp only [ReorgResult.missing.injEq] at h; exact h.symm
      · split
        · intro _ h; simp at h
        · split
          · intro _ h; simp at h
          · exact ih _ _ _ _
  exact this _ _ _ _ _

/-- Numbers go up by one along parent links. -/
def Numbers (D : PB → Prop) : Prop := ∀ a b, D a → D b → a.parentHash = b.hash → a.number = b.number + 1

theorem reorgInner_num {pending : GMap Hash PB} (hf : Filed pending) (hD : ∀ h b, pending.get? h = some b → D b)
    (hN : Numbers D) (start : PB) (m : Int) (r0 : Option Hash) (n : Nat) (head : PB) (bs : List PB) (hh : D head)
    (hb : bs = [start] ∨ m + 1 ≤ head.number)
    (hr : ∀ r, r0 = some r → (bs = [start] ∧ head.number ≤ m + 1) ∨ (head.number = m + 1 ∧ head.hash ≠ r) ∨
      (head.number = m + 2 ∧ head.parentHash ≠ r)) :
    Out (fun _ => True) (fun x => ∀ head' bs', x = some (head', bs') → D head' ∧ head'.number ≤ m + 1 ∧
      (bs' = [start] ∨ head'.number = m + 1) ∧ (∀ r, r0 = some r → bs' = [start] ∨ head'.hash ≠ r))
      (reorgInner pending m n head bs) := by
  induction n generalizing head bs with
  | zero => exact trivial
  | succ n ih =>
    unfold reorgInner
    split
    · rename_i hgt
      split
      · intro _ _ h; simp at h
      · rename_i p hp
        have hpn := hN head p hh (hD _ _ hp) (hf _ _ hp).symm
        refine ih p _ (hD _ _ hp) (.inr (by omega)) ?_
        intro r hr0
        rcases hr r hr0 with ⟨_, h1⟩ | ⟨h1, _⟩ | ⟨h1, h2⟩
        · omega
        · omega
        · exact .inr (.inl ⟨by omega, by rw [hf _ _ hp]; exact h2⟩)
    · rename_i hle
      intro _ _ h
      simp only [Option.some.injEq, Prod.mk.injEq] at h
      obtain ⟨rfl, rfl⟩ := h
      refine ⟨hh, by omega, ?_, ?_⟩
      · rcases hb with hb | hb
        · exact .inl hb
        · exact .inr (by omega)
      · intro r hr0
        rcases hr r hr0 with h1 | h1 | h1
        · exact .inl h1.1
        · exact .inr h1.2
        · omega

/-- The first removed and the first added block differ, unless the reorg adds just the block it started with. -/
theorem reorgOuter_num {pending : GMap Hash PB} (hf : Filed pending) (hD : ∀ h b, pending.get? h = some b → D b)
    (hN : Numbers D) (start : PB) (n : Nat) (head oldHead : PB) (rev bs : List PB) (hh : D head) (ho : D oldHead)
    (hl : ∃ rest, bs = head :: rest)
    (hb : bs = [start] ∨ oldHead.number + 1 ≤ head.number)
    (hr : ∀ r rs, rev = r :: rs → (bs = [start] ∧ head.number ≤ oldHead.number + 1) ∨
      (head.number = oldHead.number + 1 ∧ head.hash ≠ r.hash) ∨
      (head.number = oldHead.number + 2 ∧ head.parentHash ≠ r.hash)) :
    Out (fun _ => True) (fun x => ∀ r rs a as, x = .ok (r :: rs) (a :: as) → r.hash = a.hash → a :: as = [start])
      (reorgOuter pending start n head oldHead rev bs) := by
  induction n generalizing head oldHead rev bs with
  | zero => exact trivial
  | succ n ih =>
    unfold reorgOuter
    have hhead : Out (fun _ => True) (fun x : Option (PB × List PB) => ∀ head' bs', x = some (head', bs') → ∃ rest, bs' = head' :: rest)
        (reorgInner pending oldHead.number (pending.size + 2) head bs) := by
      have : ∀ n head bs, (∃ rest, bs = head :: rest) →
          Out (fun _ => True) (fun x : Option (PB × List PB) => ∀ head' bs', x = some (head', bs') → ∃ rest, bs' = head' :: rest)
          (reorgInner pending oldHead.number n head bs) := by
        intro n
        induction n with
        | zero => intros; exact trivial
        | succ n ih =>
          intro head bs h
          unfold reorgInner
          split
          · split
            · intro _ _ h; simp at h
            · exact ih _ _ ⟨_, rfl⟩
          · intro _ _ h'
            simp only [Option.some.injEq, Prod.mk.injEq] at h'
            obtain ⟨rfl, rfl⟩ := h'
            exact h
      exact this _ _ _ hl
    refine (((reorgInner_num hf hD hN start oldHead.number (rev.head?.map PB.hash) (pending.size + 2) head bs hh hb ?_).and
      hhead).mono (E' := fun _ => True) (fun _ _ => trivial) (fun _ h => h)).bind (fun x hx => ?_)
    · intro r hr0
      cases rev with
      | nil => simp at hr0
      | cons a as =>
        simp only [List.head?_cons, Option.map_some, Option.some.injEq] at hr0
        subst hr0
        exact hr a as rfl
    · split
      · intro _ _ _ _ h; simp at h
      · rename_i head' bs'
        obtain ⟨hx, hx2⟩ := hx
        obtain ⟨h1, h2, h3, h4⟩ := hx _ _ rfl
        obtain ⟨rest, hrest⟩ := hx2 _ _ rfl
        split
        · intro r rs a as h he
          simp only [ReorgResult.ok.injEq] at h
          obtain ⟨rfl, rfl⟩ := h
          rcases h4 r.hash rfl with h5 | h5
          · exact h5
          · simp only [List.cons.injEq] at hrest
            rw [← hrest.1] at h5
            exact (h5 he.symm).elim
        · rename_i hne
          split
          · intro _ _ _ _ h; simp at h
          · rename_i old' hp
            have hon := hN oldHead old' ho (hD _ _ hp) (hf _ _ hp).symm
            refine ih head' old' _ _ h1 (hD _ _ hp) ⟨rest, hrest⟩ ?_ ?_
            · rcases h3 with h3 | h3
              · exact .inl h3
              · exact .inr (by omega)
            · intro r rs he
              simp only [List.cons.injEq] at he
              obtain ⟨rfl, _⟩ := he
              by_cases hn : head'.number = old'.number + 2
              · exact .inr (.inr ⟨hn, fun e => hne e.symm⟩)
              · rcases h3 with h3 | h3
                · exact .inl ⟨h3, by omega⟩
                · omega

theorem prepareReorg_num {pending : GMap Hash PB} (hf : Filed pending) (hD : ∀ h b, pending.get? h = some b → D b)
    (hN : Numbers D) (new old : PB) (h1 : D new) (h2 : D old) :
    Out (fun _ => True) (fun x => ∀ r rs a as, x = .ok (r :: rs) (a :: as) → r.hash = a.hash → a :: as = [new])
      (prepareReorg pending new old) :=
  reorgOuter_num hf hD hN new _ new old [] [new] h1 h2 ⟨[], rfl⟩ (.inl rfl) (by simp)

/-- How an update relates to the chain before it. -/
inductive Links (N : Prop) (s : OMP) (added removed : List PB) : Prop
  | next (h : removed = []) (hl : Linked s.lastHash added) : Links N s added removed
  | fork (p : Hash) (hne : removed ≠ []) (hr : Linked p removed) (he : endOf p removed = s.lastHash) (ha : Linked p added)
      (hw : ∃ b ∈ added, s.lastWeight < b.weight)
      (hd : N → ∀ r rs a as, removed = r :: rs → added = a :: as → r.hash = a.hash → s.lastWeight < a.weight) :
      Links N s added removed
  | init (h : removed = []) (hi : s.initEmpty = true) (hl : ∃ p, Linked p added) : Links N s added removed

/-- `s'` is `s` after sending one update. -/
structure Updated (N : Prop) (D : PB → Prop) (s s' : OMP) (added removed : List PB) : Prop where
  ne : added ≠ []
  addedD : ∀ b ∈ added, D b
  removedD : ∀ b ∈ removed, D b
  links : Hashed D → Links N s added removed
  lastHash : s'.lastHash = endOf s.lastHash added
  lastWeight : s'.lastWeight = endWeight s.lastWeight added
  log : ∃ l, OnlyEvicts l ∧ s'.log = s.log ++ l ++ [.update added removed]

/-- What handling a block can do. -/
structure Handled (N : Prop) (D : PB → Prop) (s s' : OMP) : Prop where
  inv : OInv D s'
  whitelist : s'.whitelist = s.whitelist
  blacklist : ∀ h, s.blacklist.contains h = true → s'.blacklist.contains h = true
  initEmpty : s'.initEmpty = s.initEmpty
  cap : s'.finished.cap = s.finished.cap
  out : (s'.lastHash = s.lastHash ∧ s'.lastWeight = s.lastWeight ∧ ∃ l, OnlyEvicts l ∧ s'.log = s.log ++ l) ∨
    ∃ added removed, Updated N D s s' added removed

variable {N : Prop}

theorem Links.of_head {s s0 : OMP} {added removed : List PB} (h : Links N s added removed) (h1 : s.lastHash = s0.lastHash)
    (h2 : s.lastWeight = s0.lastWeight) (h3 : s.initEmpty = s0.initEmpty) : Links N s0 added removed := by
  cases h with
  | next a b => exact .next a (h1 ▸ b)
  | fork p a b c d e f => rw [h1] at c; rw [h2] at e f; exact .fork p a b c d e f
  | init a b c => exact .init a (h3 ▸ b) c

/-- Before handling, blocks may have been forgotten. -/
theorem Handled.after {s0 s s' : OMP} (h : Handled N D s s') (h1 : s.lastHash = s0.lastHash) (h2 : s.lastWeight = s0.lastWeight)
    (h3 : s.whitelist = s0.whitelist) (h4 : s.blacklist = s0.blacklist) (h5 : s.initEmpty = s0.initEmpty)
    (h6 : s.finished.cap = s0.finished.cap) (h7 : ∃ l, OnlyEvicts l ∧ s.log = s0.log ++ l) : Handled N D s0 s' := by
  obtain ⟨l, hl, e⟩ := h7
  refine ⟨h.inv, h.whitelist.trans h3, by rw [← h4]; exact h.blacklist, h.initEmpty.trans h5, h.cap.trans h6, ?_⟩
  rcases h.out with ⟨a, b, l', hl', e'⟩ | ⟨added, removed, hu⟩
  · exact .inl ⟨a.trans h1, b.trans h2, l ++ l', hl.append hl', by rw [e', e, List.append_assoc]⟩
  · obtain ⟨l', hl', e'⟩ := hu.log
    exact .inr ⟨added, removed, hu.ne, hu.addedD, hu.removedD, fun hH => (hu.links hH).of_head h1 h2 h5, by rw [hu.lastHash, h1],
      by rw [hu.lastWeight, h2], l ++ l', hl.append hl', by rw [e', e]; simp⟩

theorem Handled.queue {s s' : OMP} (h : Handled N D s s') {pb : PB} (hD : D pb) : Handled N D s (s'.queue pb) := by
  refine ⟨h.inv.queue hD, h.whitelist, h.blacklist, h.initEmpty, h.cap, ?_⟩
  rcases h.out with h1 | ⟨added, removed, hu⟩
  · exact .inl h1
  · exact .inr ⟨added, removed, hu.ne, hu.addedD, hu.removedD, hu.links, hu.lastHash, hu.lastWeight, hu.log⟩

theorem Handled.quiet {s : OMP} (hI : OInv D s) : Handled N D s s :=
  ⟨hI, rfl, fun _ h => h, rfl, rfl, .inl ⟨rfl, rfl, [], OnlyEvicts.nil, by simp⟩⟩

theorem Handled.shrunk {s s' : OMP} (hI : OInv D s) {F : Hash → Prop} (h : Shrink F s s') : Handled N D s s' := by
  obtain ⟨l, e, hl, _⟩ := h.log
  exact ⟨hI.shrink h, h.whitelist, by rw [h.blacklist]; exact fun _ h => h, h.initEmpty, h.cap,
    .inl ⟨h.lastHash, h.lastWeight, l, hl, e⟩⟩

theorem Shrink.logs {F : Hash → Prop} {s s' : OMP} (h : Shrink F s s') : ∃ l, OnlyEvicts l ∧ s'.log = s.log ++ l := by
  obtain ⟨l, e, hl, _⟩ := h.log; exact ⟨l, hl, e⟩

theorem linked_ext {p : Hash} {new ext : List PB} (h : Linked p new) (hne : new ≠ []) {x : Hash}
    (he : Linked (endOf x new) ext) : Linked p (new ++ ext) := by
  refine linked_append.mpr ⟨h, ?_⟩
  cases new with
  | nil => exact (hne rfl).elim
  | cons a as => exact he

theorem Handled.sent {s s' : OMP} {new old ext : List PB} (h : Sent D s s' new old ext) (hne : new ≠ [])
    (hn : ∀ b ∈ new, D b) (ho : ∀ b ∈ old, D b) (hl : Hashed D → Links N s (new ++ ext) old) : Handled N D s s' := by
  refine ⟨h.inv, h.whitelist, by rw [h.blacklist]; exact fun _ h => h, h.initEmpty, h.cap, .inr ⟨new ++ ext, old, ?_, ?_, ho, hl,
    h.lastHash, h.lastWeight, h.log⟩⟩
  · simp [hne]
  · intro b hb
    rcases List.mem_append.mp hb with hb | hb
    · exact hn b hb
    · exact h.extD b hb

theorem onConnected_out (hN : N → Numbers D) {rec : OMP → PB → Except Fault OMP} (s : OMP) (pb : PB)
    (hI : OInv D s) (hD : D pb)
    (hrec : ∀ s c, OInv D s → D c → Out (fun _ => True) (Handled N D s) (rec s c)) :
    Out (fun _ => True) (Handled N D s) (s.onConnected o rec pb) := by
  unfold OMP.onConnected
  split
  · rename_i lastBlock hlast hw2
    have hw : s.lastWeight < pb.weight := by simpa using hw2
    obtain ⟨k1, k2⟩ := hI.pend _ _ hlast
    have hf : Filed s.pending := hI.pendKeys
    have hnum : Out (fun _ => True) (fun x => N → ∀ r rs a as, x = ReorgResult.ok (r :: rs) (a :: as) →
        r.hash = a.hash → a :: as = [pb]) (prepareReorg s.pending pb lastBlock) := by
      by_cases hn : N
      · exact (prepareReorg_num hf (fun h b hb => (hI.pend h b hb).2) (hN hn) pb lastBlock hD k2).imp
          (fun _ h _ => h)
      · exact (out_top _).imp (fun _ _ hn' => (hn hn').elim)
    refine ((((prepareReorg_out hf pb lastBlock).and (prepareReorg_missing s.pending pb lastBlock)).and hnum).mono
      (E' := fun _ => True) (fun _ _ => trivial) (fun _ h => h)).bind ?_
    rintro r ⟨⟨r1, r2⟩, r3⟩
    split
    · rename_i removed added
      obtain ⟨p, hk⟩ := r1 _ _ rfl
      obtain ⟨pre, hpre⟩ := hk.last
      have hne : added ≠ [] := by rw [hpre]; simp
      have ha : ∀ b ∈ added, D b := by
        intro b hb
        rcases hk.addedIn b hb with e | ⟨x, e⟩
        · exact e ▸ hD
        · exact (hI.pend _ _ e).2
      have hr : ∀ b ∈ removed, D b := by
        intro b hb
        rcases hk.removedIn b hb with e | ⟨x, e⟩
        · exact e ▸ k2
        · exact (hI.pend _ _ e).2
      refine (prepareEmit_out s added removed hI ha).imp ?_
      rintro s' ⟨ext, hs⟩
      refine Handled.sent hs hne ha hr (fun hH => ?_)
      have htip := hk.tip
      rw [k1] at htip
      by_cases hrm : removed = []
      · subst hrm
        exact .next rfl (by rw [← htip]; exact linked_ext hk.up hne (hs.linked hH))
      · refine .fork p hrm hk.down htip (linked_ext hk.up hne (hs.linked hH)) ⟨pb, by rw [hpre]; simp, hw⟩ ?_
        intro hn r rs a as g1 g2 g3
        cases added with
        | nil => exact (hne rfl).elim
        | cons a' as' =>
          simp only [List.cons_append, List.cons.injEq] at g2
          obtain ⟨rfl, _⟩ := g2
          subst g1
          have := r3 hn r rs a' as' rfl g3
          simp only [List.cons.injEq] at this
          rw [this.1]; exact hw
    · rename_i last
      have := r2 _ rfl
      subst this
      exact (Handled.quiet hI).queue hD
    · exact Handled.quiet hI
  · refine (finAdd_shrink o s (F := Known D) ⟨pb, hD, rfl⟩).bind (fun s2 h2 => ?_)
    refine (getPendingChild_out s2 pb.hash).bind (fun r hr => ?_)
    split
    · exact (Handled.shrunk hI h2).queue hD
    · rename_i c
      simp only []
      split
      · exact (Handled.shrunk hI (h2.trans (Shrink.tick _ s2 _))).queue hD
      · rename_i cb hc
        have hI2 := hI.shrink h2
        refine (hrec { s2 with tick := s2.tick + 1 } cb (hI2.of_maps rfl rfl) (hI2.pend _ _ hc).2).bind (fun s3 h3 => ?_)
        exact Handled.queue (h3.after h2.lastHash h2.lastWeight h2.whitelist h2.blacklist h2.initEmpty h2.cap h2.logs) hD

theorem onUnconnected_out (s : OMP) (pb : PB) (hI : OInv D s) (hD : D pb) :
    Out (fun _ => True) (Handled N D s) (s.onUnconnected o pb) := by
  unfold OMP.onUnconnected
  split
  · split
    · exact (Handled.quiet (hI.erase pb.hash)).after rfl rfl rfl rfl rfl rfl ⟨[], OnlyEvicts.nil, by simp⟩
    · exact (finAdd_shrink o s (F := Known D) ⟨pb, hD, rfl⟩).bind (fun s2 h2 => (Handled.shrunk hI h2).queue hD)
  · exact (Handled.quiet hI).queue hD

theorem accept_out (hN : N → Numbers D) {rec : OMP → PB → Except Fault OMP} (s : OMP) (pb : PB) (reorg : Bool)
    (hI : OInv D s) (hD : D pb)
    (hrec : ∀ s c, OInv D s → D c → Out (fun _ => True) (Handled N D s) (rec s c)) :
    Out (fun _ => True) (Handled N D s) (OMP.accept o rec s pb reorg) := by
  unfold OMP.accept
  split
  · exact Handled.quiet hI
  · split
    · rename_i hp
      refine (prepareEmit_out s [pb] [] hI (by simpa using hD)).imp ?_
      rintro s' ⟨ext, hs⟩
      exact Handled.sent hs (by simp) (by simpa using hD) (by simp) (fun hH => .next rfl ⟨hp, hs.linked hH⟩)
    · split
      · rename_i hi
        refine (prepareEmit_out s [pb] [] hI (by simpa using hD)).imp ?_
        rintro s' ⟨ext, hs⟩
        refine Handled.sent hs (by simp) (by simpa using hD) (by simp) (fun hH => .init rfl ?_ ⟨pb.parentHash, rfl, hs.linked hH⟩)
        simp only [Bool.and_eq_true] at hi
        exact hi.1.1
      · split
        · exact onConnected_out hN s pb hI hD hrec
        · exact onUnconnected_out s pb hI hD

theorem excludes_iff (s : OMP) (pb : PB) :
    s.excludes pb = true ↔ Forbidden s.whitelist pb ∨ s.blacklist.contains pb.parentHash = true := by
  unfold OMP.excludes Forbidden heightKey toUint64
  rw [Bool.or_eq_true]
  refine or_congr ?_ Iff.rfl
  cases s.whitelist.get? (pb.number % 18446744073709551616).toNat <;> simp

theorem handleAux_out (hN : N → Numbers D) (n : Nat) (s : OMP) (pb : PB) (reorg : Bool) (hI : OInv D s)
    (hpb : s.excludes pb = false → D pb) :
    Out (fun _ => True) (Handled N D s) (OMP.handleAux o n s pb reorg) := by
  induction n generalizing s pb reorg with
  | zero => exact trivial
  | succ n ih =>
    unfold OMP.handleAux
    split
    · refine ⟨hI.of_maps rfl rfl, rfl, ?_, rfl, rfl, .inl ⟨rfl, rfl, [], OnlyEvicts.nil, by simp⟩⟩
      intro h hh
      simp only [GMap.contains_insert, hh, Bool.or_true]
    · rename_i he
      have hD := hpb (by simpa using he)
      exact (accept_out hN _ pb reorg (hI.insert hD) hD (fun s c hs hc => ih s c true hs (fun _ => hc))).imp
        (fun s' h => h.after rfl rfl rfl rfl rfl rfl ⟨[], OnlyEvicts.nil, by simp⟩)

theorem handle_out (hN : N → Numbers D) (s : OMP) (pb : PB) (hI : OInv D s)
    (hpb : s.excludes pb = false → D pb) :
    Out (fun _ => True) (Handled N D s) (s.handle o pb) := handleAux_out hN _ _ _ _ hI hpb

end Verif
