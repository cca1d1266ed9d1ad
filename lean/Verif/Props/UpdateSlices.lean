import Verif.Model.UpdateSlices

/-
C162: `ChainUpdate.Done` and the arrays behind its slices.
-/

namespace Verif

/-- The slice holds these blocks. -/
def Spec.SliceHolds (mem : Nat → Nat → Option Nat) (s : USlice) (l : List Nat) : Prop :=
  s.len = l.length ∧ ∀ i, i < l.length → mem s.arr i = l[i]?

/-- All blocks of an update, those added and then those removed. -/
def Spec.updateBlocks (u : UpdateV) : List Nat := u.new ++ u.old

open Spec

section

/-- What holds of one goroutine; `own` says which update an array was filled for. -/
def UGood (own : Nat → Option UpdateV) (mem : Nat → Nat → Option Nat) (g : UGo) : Prop :=
  ∃ d, g.got = d ++ g.todo ∧
    match g.phase with
    | .idle => g.called = (d.flatMap updateBlocks).map some
    | .copy dst k => ∃ u rest, g.todo = u :: rest ∧ own dst = some u ∧ k ≤ u.need ∧ (∀ j, j < k → mem dst j = (updateBlocks u)[j]?) ∧
        g.called = (d.flatMap updateBlocks).map some
    | .range dst k => ∃ u rest, g.todo = u :: rest ∧ own dst = some u ∧ k ≤ u.need ∧ (∀ j, j < u.need → mem dst j = (updateBlocks u)[j]?) ∧
        g.called = (d.flatMap updateBlocks).map some ++ ((updateBlocks u).take k).map some

structure UInv (own : Nat → Option UpdateV) (s : USys) : Prop where
  added : ∀ u ∈ s.sent, SliceHolds s.mem u.added u.new
  removed : ∀ u ∈ s.sent, SliceHolds s.mem u.removed u.old
  fresh : ∀ a, s.next ≤ a → own a = none
  allocated : ∀ u ∈ s.sent, u.added.arr < s.next ∧ u.removed.arr < s.next
  mine : ∀ u ∈ s.sent, own u.added.arr = some u
  notRemoved : ∀ u ∈ s.sent, own u.removed.arr = none
  known : ∀ i, ∀ u ∈ (s.gs i).got, u ∈ s.sent
  each : ∀ i, UGood own s.mem (s.gs i)

/-! ### Making an update -/

/-- The slices in the making: they hold these blocks, their arrays are not the same and were made after `s0`, whose arrays are untouched. -/
structure UMaking (s0 : USys) (x : USys × USlice × USlice) (l : List Nat × List Nat) : Prop where
  new : SliceHolds x.1.mem x.2.1 l.1
  old : SliceHolds x.1.mem x.2.2 l.2
  newIn : s0.next ≤ x.2.1.arr ∧ x.2.1.arr < x.1.next
  oldIn : s0.next ≤ x.2.2.arr ∧ x.2.2.arr < x.1.next
  ne : x.2.1.arr ≠ x.2.2.arr
  frame : ∀ a, a < s0.next → x.1.mem a = s0.mem a
  gs : x.1.gs = s0.gs
  sent : x.1.sent = s0.sent

theorem elems_holds {s : USys} {x : USlice} {l : List Nat} (h : SliceHolds s.mem x l) : s.elems x = l.map some := by
  unfold USys.elems
  apply List.ext_getElem?
  intro i
  rw [h.1, List.getElem?_map, List.getElem?_map]
  by_cases hi : i < l.length
  · rw [List.getElem?_range hi, List.getElem?_eq_getElem hi]
    simp [h.2 i hi, hi]
  · rw [List.getElem?_eq_none (by simpa using hi), List.getElem?_eq_none (by omega)]
    rfl

/-- What `append` does. -/
theorem append_holds {gr} {s : USys} {x : USlice} {l m : List Nat} (h : SliceHolds s.mem x l) :
    SliceHolds (s.append gr x (m.map some)).1.mem (s.append gr x (m.map some)).2 (l ++ m) ∧
    (∀ a, a < s.next → a ≠ x.arr → (s.append gr x (m.map some)).1.mem a = s.mem a) ∧
    s.next ≤ (s.append gr x (m.map some)).1.next ∧
    ((s.append gr x (m.map some)).2.arr = x.arr ∨
      (s.append gr x (m.map some)).2.arr = s.next ∧ s.next < (s.append gr x (m.map some)).1.next) ∧
    (s.append gr x (m.map some)).1.gs = s.gs ∧ (s.append gr x (m.map some)).1.sent = s.sent := by
  obtain ⟨h1, h2⟩ := h
  unfold USys.append
  split
  · refine ⟨⟨by simp [h1], fun j hj => ?_⟩, fun a _ ha => ?_, Nat.le_refl _, .inl rfl, rfl, rfl⟩
    · simp only [List.length_append] at hj
      simp only [List.length_map, true_and]
      split
      · rw [List.getElem?_append_right (by omega), h1, List.getElem?_map, List.getElem?_eq_getElem (by omega)]
        rfl
      · rw [List.getElem?_append_left (by omega)]
        exact h2 j (by omega)
    · funext j
      simp [ha]
  · refine ⟨⟨by simp [h1], fun j hj => ?_⟩, fun a ha _ => ?_, Nat.le_succ _, .inr ⟨rfl, Nat.lt_succ_self _⟩, rfl, rfl⟩
    · simp only [List.length_append] at hj
      simp only [if_pos]
      split
      · rw [List.getElem?_append_left (by omega)]
        exact h2 j (by omega)
      · rw [List.getElem?_append_right (by omega), h1, List.getElem?_map, List.getElem?_eq_getElem (by omega)]
        rfl
    · funext j
      have : a ≠ s.next := by omega
      simp [this]

/-- What a literal does. -/
theorem lit_holds {s : USys} {l : List Nat} : SliceHolds (s.lit l).1.mem (s.lit l).2 l ∧ (∀ a, a < s.next → (s.lit l).1.mem a = s.mem a) ∧
    (s.lit l).2.arr = s.next ∧ (s.lit l).1.next = s.next + 1 ∧ (s.lit l).1.gs = s.gs ∧ (s.lit l).1.sent = s.sent := by
  refine ⟨⟨rfl, fun j _ => by simp [USys.lit]⟩, fun a ha => ?_, rfl, rfl, rfl, rfl⟩
  funext j
  have : a ≠ s.next := by omega
  simp [USys.lit, this]

theorem SliceHolds.same {mem mem' : Nat → Nat → Option Nat} {x : USlice} {l : List Nat} (h : SliceHolds mem x l) (e : mem' x.arr = mem x.arr) :
    SliceHolds mem' x l := ⟨h.1, fun i hi => by rw [e]; exact h.2 i hi⟩

theorem UMaking.op {s0 x l gr} (h : UMaking s0 x l) (op : MakeOp) : UMaking s0 (USys.makeOp gr x op) (MakeOp.onLists l op) := by
  obtain ⟨s, new, old⟩ := x
  obtain ⟨ln, lo⟩ := l
  obtain ⟨h1, h2, ⟨n1, n2⟩, ⟨o1, o2⟩, hne, hf, hg, hs⟩ := h
  simp only at h1 h2 n1 n2 o1 o2 hne hf hg hs
  cases op with
  | front b =>
    obtain ⟨a1, a2, a3, a4, a5, a6⟩ := lit_holds (s := s) (l := [b])
    have e := elems_holds (SliceHolds.same h1 (a2 _ n2))
    obtain ⟨b1, b2, b3, b4, b5, b6⟩ := append_holds (gr := gr) (m := ln) a1
    simp only [USys.makeOp, MakeOp.onLists]
    rw [e]
    have hold : ((s.lit [b]).1.append gr (s.lit [b]).2 (ln.map some)).1.mem old.arr = s.mem old.arr := by
      rw [b2 _ (by omega) (by omega), a2 _ o2]
    refine ⟨by simpa using b1, SliceHolds.same h2 hold, ?_, ⟨o1, by simp only; omega⟩, ?_, fun a ha => ?_, by rw [b5, a5, hg], by rw [b6, a6, hs]⟩
    · simp only
      rcases b4 with b4 | ⟨b4, b4'⟩ <;> rw [b4] <;> omega
    · simp only
      rcases b4 with b4 | ⟨b4, b4'⟩ <;> rw [b4] <;> omega
    · simp only
      rw [b2 a (by omega) (by omega), a2 a (by omega), hf a ha]
  | revert b =>
    obtain ⟨a1, a2, a3, a4, a5, a6⟩ := lit_holds (s := s) (l := [b])
    have e := elems_holds (SliceHolds.same h2 (a2 _ o2))
    obtain ⟨b1, b2, b3, b4, b5, b6⟩ := append_holds (gr := gr) (m := lo) a1
    simp only [USys.makeOp, MakeOp.onLists]
    rw [e]
    have hold : ((s.lit [b]).1.append gr (s.lit [b]).2 (lo.map some)).1.mem new.arr = s.mem new.arr := by
      rw [b2 _ (by omega) (by omega), a2 _ n2]
    refine ⟨SliceHolds.same h1 hold, by simpa using b1, ⟨n1, by simp only; omega⟩, ?_, ?_, fun a ha => ?_, by rw [b5, a5, hg], by rw [b6, a6, hs]⟩
    · simp only
      rcases b4 with b4 | ⟨b4, b4'⟩ <;> rw [b4] <;> omega
    · simp only
      rcases b4 with b4 | ⟨b4, b4'⟩ <;> rw [b4] <;> omega
    · simp only
      rw [b2 a (by omega) (by omega), a2 a (by omega), hf a ha]
  | back b =>
    obtain ⟨b1, b2, b3, b4, b5, b6⟩ := append_holds (gr := gr) (m := [b]) h1
    simp only [USys.makeOp, MakeOp.onLists]
    have e : ([some b] : List (Option Nat)) = [b].map some := rfl
    rw [e]
    refine ⟨b1, SliceHolds.same h2 (b2 _ o2 (Ne.symm hne)), ?_, ⟨o1, by simp only; omega⟩, ?_, fun a ha => ?_, by rw [b5, hg], by rw [b6, hs]⟩
    · simp only
      rcases b4 with b4 | ⟨b4, b4'⟩ <;> rw [b4] <;> omega
    · simp only
      rcases b4 with b4 | ⟨b4, b4'⟩ <;> rw [b4] <;> omega
    · simp only
      rw [b2 a (by omega) (by omega), hf a ha]

theorem UMaking.ops {s0 gr} (ops : List MakeOp) : ∀ {x l}, UMaking s0 x l → UMaking s0 (ops.foldl (USys.makeOp gr) x) (ops.foldl MakeOp.onLists l) := by
  induction ops with
  | nil => intro x l h; exact h
  | cons op ops ih => intro x l h; exact ih (h.op op)

theorem making (s : USys) (gr : Nat → Nat → Nat) (pb : Nat) (ops : List MakeOp) :
    UMaking s (s.make gr pb ops) (ops.foldl MakeOp.onLists ([pb], [])) := by
  unfold USys.make
  obtain ⟨a1, a2, a3, a4, a5, a6⟩ := lit_holds (s := s) (l := [pb])
  obtain ⟨b1, b2, b3, b4, b5, b6⟩ := lit_holds (s := (s.lit [pb]).1) (l := [])
  refine UMaking.ops ops ⟨SliceHolds.same a1 (b2 _ (by simp only; omega)), b1, ?_, ?_, ?_, fun a ha => ?_, by rw [b5, a5], by rw [b6, a6]⟩
  · simp only; omega
  · simp only; omega
  · simp only; omega
  · simp only
    rw [b2 a (by omega), a2 a ha]

/-! ### Calls -/

theorem UInv.need {own s} (h : UInv own s) {u} (hu : u ∈ s.sent) : u.need = (updateBlocks u).length := by
  simp [UpdateV.need, updateBlocks, (h.added u hu).1, (h.removed u hu).1]

theorem UInv.src {own s} (h : UInv own s) {u} (hu : u ∈ s.sent) {k} (hk : k < u.need) : s.src u k = (updateBlocks u)[k]? := by
  obtain ⟨a1, a2⟩ := h.added u hu
  obtain ⟨b1, b2⟩ := h.removed u hu
  unfold USys.src updateBlocks
  unfold UpdateV.need at hk
  split
  · rename_i hlt
    rw [a2 k (by omega), List.getElem?_append_left (by omega)]
  · rw [b2 _ (by omega), List.getElem?_append_right (by omega), a1]

/-- Only goroutine `i` has changed. -/
theorem UInv.moved {own s i g} (h : UInv own s) (hk : ∀ u ∈ g.got, u ∈ s.sent) (hg : UGood own s.mem g) :
    UInv own (s.go i g) where
  added := h.added
  removed := h.removed
  fresh := h.fresh
  allocated := h.allocated
  mine := h.mine
  notRemoved := h.notRemoved
  known j := by
    simp only [USys.go]
    split
    · exact hk
    · exact h.known j
  each j := by
    simp only [USys.go]
    split
    · exact hg
    · exact h.each j

/-- Memory has changed, but not where it matters. -/
theorem UGood.memory {own own' : Nat → Option UpdateV} {mem mem' g} (h : UGood own mem g) (ho : ∀ a u, own a = some u → own' a = some u)
    (hm : ∀ a u j, own a = some u → mem a j = (updateBlocks u)[j]? → mem' a j = (updateBlocks u)[j]?) : UGood own' mem' g := by
  obtain ⟨d, e, h⟩ := h
  refine ⟨d, e, ?_⟩
  cases hp : g.phase with
  | idle => simp only [hp] at h ⊢; exact h
  | copy dst k =>
    simp only [hp] at h ⊢
    obtain ⟨u, rest, h1, h2, h3, h4, h5⟩ := h
    exact ⟨u, rest, h1, ho _ _ h2, h3, fun j hj => hm _ _ _ h2 (h4 j hj), h5⟩
  | range dst k =>
    simp only [hp] at h ⊢
    obtain ⟨u, rest, h1, h2, h3, h4, h5⟩ := h
    exact ⟨u, rest, h1, ho _ _ h2, h3, fun j hj => hm _ _ _ h2 (h4 j hj), h5⟩

/-- Writing what belongs there changes nothing for the others. -/
theorem UInv.poked {own s d u k} (h : UInv own s) (hd : own d = some u) :
    UInv own (s.poke d k ((updateBlocks u)[k]?)) := by
  refine ⟨fun v hv => ⟨(h.added v hv).1, fun j hj => ?_⟩, fun v hv => ⟨(h.removed v hv).1, fun j hj => ?_⟩, h.fresh, h.allocated, h.mine, h.notRemoved,
    h.known, fun j => (h.each j).memory (fun _ _ e => e) fun a v n ha hm => ?_⟩
  · simp only [USys.poke]
    split
    · rename_i e
      have := h.mine v hv
      rw [e.1, hd] at this
      cases this
      rw [← e.2, updateBlocks, List.getElem?_append_left hj]
    · exact (h.added v hv).2 j hj
  · simp only [USys.poke]
    split
    · rename_i e
      have := h.notRemoved v hv
      rw [e.1, hd] at this
      cases this
    · exact (h.removed v hv).2 j hj
  · simp only [USys.poke]
    split
    · rename_i e
      rw [e.1, hd] at ha
      cases ha
      rw [e.2]
    · exact hm

theorem UInv.step {own s t} (h : UInv own s) (hs : USys.Step false s t) : ∃ own', UInv own' t := by
  have told : ∀ {i u rest}, (s.gs i).todo = u :: rest → u ∈ s.sent := by
    intro i u rest e
    obtain ⟨d, hd, _⟩ := h.each i
    exact h.known i u (by rw [hd, e]; simp)
  cases hs with
  | send gr pb ops =>
    have hm := making s gr pb ops
    generalize s.make gr pb ops = x at hm ⊢
    generalize ops.foldl MakeOp.onLists ([pb], []) = l at hm ⊢
    obtain ⟨s1, new, old⟩ := x
    obtain ⟨h1, h2, ⟨n1, n2⟩, ⟨o1, o2⟩, hne, hf, hg, hs⟩ := hm
    simp only at h1 h2 n1 n2 o1 o2 hne hf hg hs
    have hle : s.next ≤ s1.next := by omega
    have hlt : ∀ {a v}, own a = some v → a < s.next := by
      intro a v e
      apply Classical.byContradiction
      intro hn
      rw [h.fresh a (by omega)] at e
      cases e
    refine ⟨fun a => if a = new.arr then some ⟨new, old, l.1, l.2⟩ else own a, ?_⟩
    have mem : ∀ {P : UpdateV → Prop}, (∀ u ∈ s.sent, P u) → P ⟨new, old, l.1, l.2⟩ → ∀ u ∈ s1.sent ++ [⟨new, old, l.1, l.2⟩], P u := by
      intro P p1 p2 u hu
      rw [hs] at hu
      rcases List.mem_append.mp hu with hu | hu
      · exact p1 u hu
      · rw [List.mem_singleton.mp hu]; exact p2
    refine ⟨mem (fun u hu => SliceHolds.same (h.added u hu) (hf _ (h.allocated u hu).1)) h1,
      mem (fun u hu => SliceHolds.same (h.removed u hu) (hf _ (h.allocated u hu).2)) h2, fun a ha => ?_,
      mem (fun u hu => ?_) ⟨n2, o2⟩, mem (fun u hu => ?_) (by simp), mem (fun u hu => ?_) ?_, fun i u hu => ?_, fun i => ?_⟩
    · simp only at ha
      rw [if_neg (by omega)]
      exact h.fresh a (by omega)
    · have := h.allocated u hu
      simp only
      omega
    · have := (h.allocated u hu).1
      rw [if_neg (by omega)]
      exact h.mine u hu
    · have := (h.allocated u hu).2
      rw [if_neg (by omega)]
      exact h.notRemoved u hu
    · simp only
      rw [if_neg (Ne.symm hne)]
      exact h.fresh _ o1
    · simp only at hu ⊢
      rw [hg] at hu
      rw [hs]
      exact List.mem_append_left _ (h.known i u hu)
    · simp only [hg]
      refine (h.each i).memory (fun a v e => ?_) fun a v n ha hm => ?_
      · have := hlt e
        rw [if_neg (by omega)]
        exact e
      · rw [hf a (hlt ha)]
        exact hm
  | @get i u hu =>
    refine ⟨own, h.moved (fun v hv => ?_) ?_⟩
    · rcases List.mem_append.mp hv with hv | hv
      · exact h.known i v hv
      · rw [List.mem_singleton.mp hv]; exact hu
    · obtain ⟨d, e, hg⟩ := h.each i
      refine ⟨d, by simp [e], ?_⟩
      cases hp : (s.gs i).phase with
      | idle => simp only [hp] at hg ⊢; exact hg
      | copy dst k =>
        simp only [hp] at hg ⊢
        obtain ⟨v, rest, h1, h2⟩ := hg
        exact ⟨v, rest ++ [u], by simp [h1], h2⟩
      | range dst k =>
        simp only [hp] at hg ⊢
        obtain ⟨v, rest, h1, h2⟩ := hg
        exact ⟨v, rest ++ [u], by simp [h1], h2⟩
  | @fits i u rest ht hp hc =>
    have hu := told ht
    refine ⟨own, h.moved (h.known i) ?_⟩
    obtain ⟨d, e, hg⟩ := h.each i
    simp only [hp] at hg
    refine ⟨d, by rw [e, ht], u, rest, rfl, h.mine u hu, by unfold UpdateV.need; omega, fun j hj => ?_, hg⟩
    obtain ⟨a1, a2⟩ := h.added u hu
    rw [a2 j (by omega), updateBlocks, List.getElem?_append_left (by omega)]
  | @grow i u rest c ht hp hc hn =>
    have hu := told ht
    refine ⟨fun a => if a = s.next then some u else own a, ?_⟩
    have hne : ∀ {a v}, own a = some v → a ≠ s.next := by
      intro a v e e'
      rw [e', h.fresh _ (Nat.le_refl _)] at e
      cases e
    refine UInv.moved ⟨fun v hv => ⟨(h.added v hv).1, fun j hj => ?_⟩, fun v hv => ⟨(h.removed v hv).1, fun j hj => ?_⟩, fun a ha => ?_, fun v hv => ?_,
      fun v hv => ?_, fun v hv => ?_, h.known, fun j => (h.each j).memory (fun a v e => ?_) fun a v n ha hm => ?_⟩ (h.known i) ?_
    · have := (h.allocated v hv).1
      simp only [USys.alloc]
      rw [if_neg (by omega)]
      exact (h.added v hv).2 j hj
    · have := (h.allocated v hv).2
      simp only [USys.alloc]
      rw [if_neg (by omega)]
      exact (h.removed v hv).2 j hj
    · simp only [USys.alloc] at ha
      rw [if_neg (by omega)]
      exact h.fresh a (by omega)
    · have := h.allocated v hv
      simp only [USys.alloc]
      omega
    · have := (h.allocated v hv).1
      rw [if_neg (by omega)]
      exact h.mine v hv
    · have := (h.allocated v hv).2
      rw [if_neg (by omega)]
      exact h.notRemoved v hv
    · rw [if_neg (hne e)]
      exact e
    · simp only [USys.alloc]
      rw [if_neg (hne ha)]
      exact hm
    · obtain ⟨d, e, hg⟩ := h.each i
      simp only [hp] at hg
      exact ⟨d, by rw [e, ht], u, rest, rfl, by simp, Nat.zero_le _, fun j hj => absurd hj (Nat.not_lt_zero j), hg⟩
  | @write i u rest d k ht hp hk =>
    have hu := told ht
    obtain ⟨dd, e, hg⟩ := h.each i
    simp only [hp] at hg
    obtain ⟨u', rest', h1, h2, h3, h4, h5⟩ := hg
    rw [ht] at h1
    cases h1
    rw [h.src hu hk]
    refine ⟨own, (h.poked h2).moved (h.known i) ⟨dd, by rw [e, ht], u, rest, rfl, h2, hk, fun j hj => ?_, h5⟩⟩
    simp only [USys.poke]
    split
    · rename_i e; rw [e.2]
    · rename_i hne
      exact h4 j (by have : j ≠ k := fun e => hne ⟨trivial, e⟩; omega)
  | @copied i u rest d ht hp =>
    obtain ⟨dd, e, hg⟩ := h.each i
    simp only [hp] at hg
    obtain ⟨u', rest', h1, h2, h3, h4, h5⟩ := hg
    rw [ht] at h1
    cases h1
    exact ⟨own, h.moved (h.known i) ⟨dd, by rw [e, ht], u, rest, rfl, h2, Nat.zero_le _, h4, by simpa using h5⟩⟩
  | @call i u rest d k ht hp hk =>
    have hu := told ht
    obtain ⟨dd, e, hg⟩ := h.each i
    simp only [hp] at hg
    obtain ⟨u', rest', h1, h2, h3, h4, h5⟩ := hg
    rw [ht] at h1
    cases h1
    refine ⟨own, h.moved (h.known i) ⟨dd, by rw [e, ht], u, rest, rfl, h2, hk, h4, ?_⟩⟩
    rw [h.need hu] at hk
    have e' : (updateBlocks u).take (k + 1) = (updateBlocks u).take k ++ [(updateBlocks u)[k]] := by rw [List.take_add_one, List.getElem?_eq_getElem hk]; rfl
    rw [h5, h4 k (by rw [h.need hu]; exact hk), List.getElem?_eq_getElem hk, e', List.map_append, List.append_assoc]
    rfl
  | @ret i u rest d ht hp =>
    have hu := told ht
    obtain ⟨dd, e, hg⟩ := h.each i
    simp only [hp] at hg
    obtain ⟨u', rest', h1, h2, h3, h4, h5⟩ := hg
    rw [ht] at h1
    cases h1
    refine ⟨own, h.moved (h.known i) ⟨dd ++ [u], by rw [e, ht]; simp, ?_⟩⟩
    rw [h.need hu, List.take_length] at h5
    simp only [h5, List.flatMap_append, List.map_append, List.flatMap_cons, List.flatMap_nil, List.append_nil]
  | client hw => cases hw

theorem UInv.start : UInv (fun _ => none) .init := by
  refine ⟨by simp [USys.init], by simp [USys.init], fun _ _ => rfl, by simp [USys.init], by simp [USys.init], by simp [USys.init], by simp [USys.init], ?_⟩
  intro i
  exact ⟨[], rfl, rfl⟩

theorem UInv.steps {t} (hs : USys.Steps false .init t) : ∃ own, UInv own t := by
  generalize hi : USys.init = s at hs
  induction hs with
  | refl => subst hi; exact ⟨_, UInv.start⟩
  | step _ ht ih =>
    obtain ⟨own, ih⟩ := ih
    exact ih.step ht

/-- **C162**: the updates hold at every moment the blocks that the ordering layer put in. -/
theorem C162_unchanged {t} (hs : USys.Steps false .init t) :
    ∀ u ∈ t.sent, SliceHolds t.mem u.added u.new ∧ SliceHolds t.mem u.removed u.old := by
  obtain ⟨own, hi⟩ := UInv.steps hs
  exact fun u hu => ⟨hi.added u hu, hi.removed u hu⟩

/-- **C162**: a goroutine has at every moment called `Done` on a first part of the blocks of the updates it got (those added and then those removed, update by
update), and on nothing else, in particular on no nil pointer. -/
theorem C162_order {t} (hs : USys.Steps false .init t) (i : Nat) :
    (t.gs i).called <+: ((t.gs i).got.flatMap updateBlocks).map some := by
  obtain ⟨own, hi⟩ := UInv.steps hs
  obtain ⟨d, e, hg⟩ := hi.each i
  rw [e]
  cases hp : (t.gs i).phase with
  | idle => simp only [hp] at hg; rw [hg]; simp
  | copy dst k =>
    simp only [hp] at hg
    obtain ⟨u, rest, h1, h2, h3, h4, h5⟩ := hg
    rw [h5]; simp
  | range dst k =>
    simp only [hp] at hg
    obtain ⟨u, rest, h1, h2, h3, h4, h5⟩ := hg
    rw [h5, h1, List.flatMap_append, List.map_append, List.flatMap_cons, List.map_append]
    refine List.prefix_append_right_inj _ |>.mpr ?_
    exact ((List.take_prefix k _).map some).trans (List.prefix_append _ _)

/-- **C162**: when its calls have returned, it has called `Done` on all of them. -/
theorem C162_all {t} (hs : USys.Steps false .init t) {i : Nat} (hd : (t.gs i).todo = []) :
    (t.gs i).called = ((t.gs i).got.flatMap updateBlocks).map some := by
  obtain ⟨own, hi⟩ := UInv.steps hs
  obtain ⟨d, e, hg⟩ := hi.each i
  rw [hd, List.append_nil] at e
  rw [e]
  cases hp : (t.gs i).phase with
  | idle => simp only [hp] at hg; exact hg
  | copy dst k =>
    simp only [hp] at hg
    obtain ⟨u, rest, h1, _⟩ := hg
    rw [hd] at h1; cases h1
  | range dst k =>
    simp only [hp] at hg
    obtain ⟨u, rest, h1, _⟩ := hg
    rw [hd] at h1; cases h1

/-- **C162**: a goroutine whose calls have not all returned can go on. -/
theorem C162_progress {t} (hs : USys.Steps false .init t) {i : Nat} (hd : (t.gs i).todo ≠ []) :
    ∃ t', USys.Step false t t' ∧ t'.gs i ≠ t.gs i := by
  obtain ⟨own, hi⟩ := UInv.steps hs
  obtain ⟨d, e, hg⟩ := hi.each i
  obtain ⟨u, rest, ht⟩ := List.exists_cons_of_ne_nil hd
  cases hp : (t.gs i).phase with
  | idle =>
    by_cases hc : u.need ≤ t.cap u.added.arr
    · exact ⟨_, .fits ht hp hc, by simp only [USys.go, if_pos]; intro e; rw [← e] at hp; simp at hp⟩
    · exact ⟨_, .grow ht hp (Nat.lt_of_not_le hc) (Nat.le_refl _), by simp only [USys.go, if_pos]; intro e; rw [← e] at hp; simp at hp⟩
  | copy dst k =>
    simp only [hp] at hg
    obtain ⟨u', rest', h1, h2, h3, h4, h5⟩ := hg
    rw [ht] at h1; cases h1
    by_cases hk : k < u.need
    · exact ⟨_, .write ht hp hk, by simp only [USys.go, if_pos]; intro e; rw [← e] at hp; simp at hp⟩
    · have : k = u.need := by omega
      subst this
      exact ⟨_, .copied ht hp, by simp only [USys.go, if_pos]; intro e; rw [← e] at hp; simp at hp⟩
  | range dst k =>
    simp only [hp] at hg
    obtain ⟨u', rest', h1, h2, h3, h4, h5⟩ := hg
    rw [ht] at h1; cases h1
    by_cases hk : k < u.need
    · exact ⟨_, .call ht hp hk, by simp only [USys.go, if_pos]; intro e; rw [← e] at hp; simp at hp⟩
    · have : k = u.need := by omega
      subst this
      exact ⟨_, .ret ht hp, by simp only [USys.go, if_pos]; intro e; rw [← e] at hp; simp at hp⟩

end

/-! ## Examples -/

/-- A growth as Go's for small slices: twice the old capacity. -/
def exGrow (c _need : Nat) : Nat := 2 * c

/-- A reorg: block 11 and its parent 10 added, block 20 removed; then the child 12 that was queued. -/
def exMakeOps : List MakeOp := [.front 10, .revert 20, .back 12]

/-- The update: the array behind the blocks added has room for one more. -/
def exUpdate : UpdateV := ⟨⟨5, 3⟩, ⟨4, 1⟩, [10, 11, 12], [20]⟩

/-- The step that makes and sends it. -/
def exUSent : USys := { (USys.init.make exGrow 11 exMakeOps).1 with sent := [exUpdate] }

theorem exUSent_step (w : Bool) : USys.Steps w .init exUSent := .step .refl (.send exGrow 11 exMakeOps)

/-- Two subscribers have got it and are in the middle of `append`, into the same array. -/
example : ∃ t, USys.Steps false .init t ∧ (t.gs 0).phase = .copy 5 3 ∧ (t.gs 1).phase = .copy 5 3 :=
  ⟨_, .step (.step (.step (.step (exUSent_step _)
    (.get (i := 0) (u := exUpdate) (by simp [exUSent])))
    (.get (i := 1) (u := exUpdate) (by simp [exUSent, USys.go])))
    (.fits (i := 0) (u := exUpdate) (rest := []) rfl rfl (by decide)))
    (.fits (i := 1) (u := exUpdate) (rest := []) rfl rfl (by decide)), rfl, rfl⟩

/-- **C162**, why subscribers must not append to what `Added()` returns: then `Done` is called on what one of them appended, and not on the block
removed. -/
theorem C162_needs_readers : ¬ ∀ (t : USys), USys.Steps true .init t → ∀ i, (t.gs i).todo = [] →
    (t.gs i).called = ((t.gs i).got.flatMap updateBlocks).map some := by
  intro H
  have hrun : ∃ t, USys.Steps true .init t ∧ (t.gs 0).todo = [] ∧ (t.gs 0).got = [exUpdate] ∧
      (t.gs 0).called = [some 10, some 11, some 12, some 99] :=
    ⟨_, .step (.step (.step (.step (.step (.step (.step (.step (.step (.step (exUSent_step _)
      (.get (i := 0) (u := exUpdate) (by simp [exUSent])))
      (.fits (i := 0) (u := exUpdate) (rest := []) rfl rfl (by decide)))
      (.write (i := 0) (u := exUpdate) (rest := []) (d := 5) (k := 3) rfl rfl (by decide)))
      (.copied (i := 0) (u := exUpdate) (rest := []) (d := 5) rfl rfl))
      (.client (u := exUpdate) (v := 99) rfl (by simp [exUSent, USys.go, USys.poke]) (by decide)))
      (.call (i := 0) (u := exUpdate) (rest := []) (d := 5) (k := 0) rfl rfl (by decide)))
      (.call (i := 0) (u := exUpdate) (rest := []) (d := 5) (k := 1) rfl rfl (by decide)))
      (.call (i := 0) (u := exUpdate) (rest := []) (d := 5) (k := 2) rfl rfl (by decide)))
      (.call (i := 0) (u := exUpdate) (rest := []) (d := 5) (k := 3) rfl rfl (by decide)))
      (.ret (i := 0) (u := exUpdate) (rest := []) (d := 5) rfl rfl), rfl, rfl, by decide⟩
  obtain ⟨t, h1, h2, h3, h4⟩ := hrun
  have := H t h1 0 h2
  rw [h3, h4] at this
  revert this
  decide

end Verif
