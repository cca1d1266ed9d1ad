import Verif.Proofs.OrderingLong
import Verif.Spec.Resume
/-! Delivery of a single chain together with any number of older blocks: blocks that are not on top of the head or of the chain, and not heavier than the
block the consumer was started with. -/
namespace Verif
open Spec

variable {D E : PB → Prop} {o : MapOrder}

theorem rising_append {w : Nat} {a b : List PB} : Rising w (a ++ b) ↔ Rising w a ∧ Rising (endWeight w a) b := by
  induction a generalizing w with
  | nil => simp [Rising, endWeight]
  | cons x a ih => simp [Rising, endWeight, ih, and_assoc]

theorem rising_above {w : Nat} {l : List PB} (h : Rising w l) : ∀ x ∈ l, w < x.weight := by
  induction l generalizing w with
  | nil => simp
  | cons a l ih =>
    intro x hx
    rcases List.mem_cons.mp hx with rfl | hx
    · exact h.1
    · exact Nat.lt_trans h.1 (ih h.2 x hx)

theorem rising_below {w : Nat} {l : List PB} (h : Rising w l) : w ≤ endWeight w l ∧ ∀ x ∈ l, x.weight ≤ endWeight w l := by
  induction l generalizing w with
  | nil => simp [endWeight]
  | cons a l ih =>
    obtain ⟨h1, h2⟩ := ih h.2
    refine ⟨by have := h.1; simp only [endWeight]; omega, ?_⟩
    intro x hx
    rcases List.mem_cons.mp hx with rfl | hx
    · exact h1
    · exact h2 x hx

theorem endOf_mem (h : Hash) (l : List PB) : endOf h l = h ∨ endOf h l ∈ hashes l := by
  induction l generalizing h with
  | nil => exact .inl rfl
  | cons a l ih =>
    rcases ih a.hash with e | e
    · exact .inr (by simp only [endOf, hashes, List.map_cons]; rw [e]; simp)
    · exact .inr (by simp only [endOf, hashes, List.map_cons] at e ⊢; simp [e])

/-- The blocks satisfying `D` are those of a chain on `root`, and older ones. -/
structure Resumes (root : Hash) (w : Nat) (chain : List PB) (D : PB → Prop) : Prop where
  linked : Linked root chain
  rising : Rising w chain
  nodup : (root :: hashes chain).Nodup
  hashed : Hashed D
  split : ∀ b, D b → (∃ x ∈ chain, Same x b) ∨ Older root w chain b

section
variable {root : Hash} {w : Nat} {em rest : List PB}

theorem Resumes.low (h : Resumes root w (em ++ rest) D) {b : PB} (hD : D b) (hb : b.hash ∉ hashes rest) :
    b.parentHash ∉ hashes rest ∧ b.parentHash ≠ endOf root em ∧ b.weight ≤ endWeight w em := by
  have hnd := h.nodup
  rw [hashes_append, ← List.cons_append, List.nodup_append] at hnd
  have hr := rising_below (rising_append.mp h.rising).1
  rcases h.split b hD with ⟨x, hx, hs⟩ | ho
  · rcases List.mem_append.mp hx with hx | hx
    · obtain ⟨e1, e2, rfl⟩ := List.append_of_mem hx
      have hl := (linked_append.mp (linked_append.mp h.linked).1).2.1
      rw [hs.parent] at hl
      have hin : b.parentHash ∈ root :: hashes e1 := by
        rw [hl]
        rcases endOf_mem root e1 with e | e
        · rw [e]; simp
        · exact List.mem_cons_of_mem _ e
      have hn2 := hnd.1
      rw [hashes_append, ← List.cons_append, List.nodup_append] at hn2
      refine ⟨?_, ?_, ?_⟩
      · intro hm
        refine hnd.2.2 _ ?_ _ hm rfl
        rcases List.mem_cons.mp hin with e | e
        · rw [e]; simp
        · simp [hashes_append, e]
      · intro e
        refine hn2.2.2 _ hin (endOf root (e1 ++ x :: e2)) ?_ e
        rw [endOf_append]
        rcases endOf_mem x.hash e2 with e | e
        · simp [endOf, e, hashes]
        · simp only [endOf, hashes, List.map_cons] at e ⊢; simp [e]
      · rw [← hs.weight]; exact hr.2 x hx
    · exact (hb (hs.hash ▸ mem_hashes hx)).elim
  · refine ⟨?_, ?_, Nat.le_trans ho.weight hr.1⟩
    · intro hm; exact ho.parent (by simp [hashes_append, hm])
    · intro e
      refine ho.parent ?_
      rw [e]
      rcases endOf_mem root em with e | e
      · rw [e]; simp
      · simp [hashes_append, e]

theorem Resumes.high (h : Resumes root w (em ++ rest) D) {b : PB} (hD : D b) (hb : b.hash ∈ hashes rest) :
    (b.parentHash = endOf root em ∨ b.parentHash ∈ hashes rest) ∧ endWeight w em < b.weight := by
  rcases h.split b hD with ⟨x, hx, hs⟩ | ho
  · have hnd := h.nodup
    rw [hashes_append, ← List.cons_append, List.nodup_append] at hnd
    rcases List.mem_append.mp hx with hx | hx
    · exact (hnd.2.2 _ (List.mem_cons_of_mem _ (mem_hashes hx)) _ (hs.hash ▸ hb) rfl).elim
    · refine ⟨?_, by rw [← hs.weight]; exact rising_above (rising_append.mp h.rising).2 x hx⟩
      obtain ⟨e1, e2, rfl⟩ := List.append_of_mem hx
      have hl := (linked_append.mp (linked_append.mp h.linked).2).2.1
      rw [hs.parent] at hl
      rw [hl]
      rcases endOf_mem (endOf root em) e1 with e | e
      · exact .inl e
      · exact .inr (by simp [hashes_append, e])
  · exact (ho.hash (by simp [hashes_append, hb])).elim

/-- A block on top of the end is the next one. -/
theorem Resumes.next (h : Resumes root w (em ++ rest) D) {b : PB} (hD : D b) (hp : b.parentHash = endOf root em) :
    ∃ x rest', rest = x :: rest' ∧ Same x b := by
  have hb : b.hash ∈ hashes rest := by
    by_cases hb : b.hash ∈ hashes rest
    · exact hb
    · exact ((h.low hD hb).2.1 hp).elim
  rcases h.split b hD with ⟨x, hx, hs⟩ | ho
  · have hnd := h.nodup
    rw [hashes_append, ← List.cons_append, List.nodup_append] at hnd
    rcases List.mem_append.mp hx with hx | hx
    · exact (hnd.2.2 _ (List.mem_cons_of_mem _ (mem_hashes hx)) _ (hs.hash ▸ hb) rfl).elim
    · obtain ⟨e1, e2, rfl⟩ := List.append_of_mem hx
      have hl := (linked_append.mp (linked_append.mp h.linked).2).2.1
      rw [hs.parent, hp] at hl
      cases e1 with
      | nil => exact ⟨x, e2, rfl, hs⟩
      | cons a e1 =>
        exfalso
        refine hnd.2.2 (endOf root em) ?_ (endOf root em) ?_ rfl
        · rcases endOf_mem root em with e | e
          · rw [e]; simp
          · exact List.mem_cons_of_mem _ e
        · rw [hl]
          rcases endOf_mem a.hash e1 with e | e
          · simp [endOf, e, hashes]
          · simp only [endOf, hashes, List.map_append, List.map_cons, List.cons_append] at e ⊢; simp [e]
  · exact (ho.hash (by simp [hashes_append, hb])).elim
end

/-! ### What eviction leaves alone -/

/-- Eviction requests for blocks whose hash is not in `hs`. -/
def EvictsLow (D : PB → Prop) (hs : List Hash) (l : List OOut) : Prop := ∀ x ∈ l, ∃ b, D b ∧ b.hash ∉ hs ∧ x = OOut.evictOlder b.number

theorem EvictsLow.nil {hs : List Hash} : EvictsLow D hs [] := by intro x hx; simp at hx

theorem EvictsLow.append {hs : List Hash} {l l' : List OOut} (h : EvictsLow D hs l) (h' : EvictsLow D hs l') : EvictsLow D hs (l ++ l') := by
  intro x hx
  rcases List.mem_append.mp hx with hx | hx
  · exact h x hx
  · exact h' x hx

theorem EvictsLow.mono {hs hs' : List Hash} {l : List OOut} (h : EvictsLow D hs l) (hm : ∀ k ∈ hs', k ∈ hs) : EvictsLow D hs' l := by
  intro x hx
  obtain ⟨b, h1, h2, h3⟩ := h x hx
  exact ⟨b, h1, fun hb => h2 (hm _ hb), h3⟩

/-- Nothing was done to the blocks in `hs`, nor to those waiting for them or for the head. -/
structure Keep (D : PB → Prop) (hs : List Hash) (F : Hash → Prop) (s s' : OMP) : Prop where
  shrink : Shrink F s s'
  pend : ∀ x ∈ hs, s'.pending.get? x = s.pending.get? x
  que : ∀ p, p ∈ hs ∨ p = s.lastHash → s'.queued.get? p = s.queued.get? p
  log : ∃ l, s'.log = s.log ++ l ∧ EvictsLow D hs l

theorem Keep.refl {hs : List Hash} {F : Hash → Prop} (s : OMP) : Keep D hs F s s :=
  ⟨Shrink.refl F s, fun _ _ => rfl, fun _ _ => rfl, [], by simp, EvictsLow.nil⟩

theorem Keep.tick {hs : List Hash} {F : Hash → Prop} (s : OMP) (n : Nat) : Keep D hs F s { s with tick := n } :=
  ⟨Shrink.tick F s n, fun _ _ => rfl, fun _ _ => rfl, [], by simp, EvictsLow.nil⟩

theorem Keep.trans {hs : List Hash} {F : Hash → Prop} {a b c : OMP} (h : Keep D hs F a b) (h' : Keep D hs F b c) : Keep D hs F a c := by
  obtain ⟨l, e, hl⟩ := h.log
  obtain ⟨l', e', hl'⟩ := h'.log
  refine ⟨h.shrink.trans h'.shrink, fun x hx => (h'.pend x hx).trans (h.pend x hx), ?_, l ++ l', by rw [e', e, List.append_assoc], hl.append hl'⟩
  intro p hp
  exact (h'.que p (by rw [h.shrink.lastHash]; exact hp)).trans (h.que p hp)

/-- What separates the blocks of `hs` from the others: these others and their parents. -/
structure Apart (D : PB → Prop) (hs : List Hash) (last : Hash) : Prop where
  low : ∀ b, D b → b.hash ∉ hs → b.parentHash ∉ hs ∧ b.parentHash ≠ last
  high : ∀ b, D b → b.hash ∈ hs → b.parentHash = last ∨ b.parentHash ∈ hs

theorem evict_keep {hs : List Hash} {F : Hash → Prop} (n : Nat) (s : OMP) (x : Hash) (hA : Apart D hs s.lastHash) (hI : OInv D s) (hx : x ∉ hs)
    (hq : x = s.lastHash → s.queued.get? s.lastHash = none) (hf : s.lastHash ∈ s.finished.items ∨ s.queued.get? s.lastHash = none) :
    Out (· = Fault.hang) (fun s' => Keep D hs F s s' ∧ s'.finished = s.finished) (OMP.evictAux o n s x) := by
  induction n generalizing s x with
  | zero => exact rfl
  | succ n ih =>
    unfold OMP.evictAux
    split
    · exact ⟨Keep.refl s, rfl⟩
    · rename_i pb hp
      obtain ⟨e1, e2⟩ := hI.pend _ _ hp
      simp only []
      rw [e1]
      obtain ⟨p1, p2⟩ := hA.low pb e2 (e1 ▸ hx)
      -- the block itself goes
      have h1 : Keep D hs F s { s with pending := s.pending.erase x, log := s.log ++ [.evictOlder pb.number] } ∨ True := .inr trivial
      clear h1
      have hI1 : OInv D { s with pending := s.pending.erase x, log := s.log ++ [.evictOlder pb.number] } :=
        ⟨fun y b hy => hI.pend y b (Sub.erase _ _ _ _ hy), hI.que, hI.ne⟩
      have back : ∀ s' q, Keep D hs F { s with pending := s.pending.erase x, log := s.log ++ [.evictOlder pb.number] } s' → Sub q s'.queued →
          (∀ p, p ∈ hs ∨ p = s.lastHash → q.get? p = s'.queued.get? p) → Keep D hs F s { s' with queued := q } := by
        intro s' q h hsub hsame
        obtain ⟨l, e, hl⟩ := h.log
        obtain ⟨l0, e0, ho, _⟩ := h.shrink.log
        refine ⟨⟨h.shrink.lastHash, h.shrink.lastWeight, h.shrink.reorgThreshold, h.shrink.whitelist, h.shrink.blacklist, h.shrink.initEmpty,
          h.shrink.pending.trans (Sub.erase _ _), hsub.trans h.shrink.queued, h.shrink.cap, h.shrink.finished, .evictOlder pb.number :: l0, ?_, ?_, by simp⟩,
          ?_, ?_, .evictOlder pb.number :: l, ?_, ?_⟩
        · simp [e0]
        · intro y hy
          rcases List.mem_cons.mp hy with h1 | h1
          · exact ⟨_, h1⟩
          · exact ho y h1
        · intro y hy
          have := h.pend y hy
          simp only [] at this ⊢
          rw [this, GMap.get?_erase, if_neg (fun e => hx (by rw [e]; exact hy))]
        · intro p hp
          exact (hsame p hp).trans (h.que p hp)
        · simp [e]
        · intro y hy
          rcases List.mem_cons.mp hy with h1 | h1
          · exact ⟨pb, e2, e1 ▸ hx, h1⟩
          · exact hl y h1
      refine (ih { s with pending := s.pending.erase x, log := s.log ++ [.evictOlder pb.number] } pb.parentHash hA hI1 p1
        (fun e => (p2 e).elim) hf).bind ?_
      rintro s2 ⟨k2, f2⟩
      split
      · exact ⟨back s2 s2.queued k2 (Sub.refl _) (fun _ _ => rfl), f2⟩
      · rename_i children hc
        have hxl : x ≠ s.lastHash := by
          intro e
          have := k2.que x (.inr e)
          rw [hc] at this
          simp only [] at this
          rw [e, hq e] at this
          simp at this
        refine Out.bind (P := fun s' => Keep D hs F { s with pending := s.pending.erase x, log := s.log ++ [.evictOlder pb.number] } s' ∧
          s'.finished = s.finished) ?_ ?_
        · refine Out.foldlM ?_ ⟨k2.trans (Keep.tick s2 _), f2⟩
          rintro s3 c hm ⟨k3, f3⟩
          split
          · exact ⟨k3, f3⟩
          · rename_i hnf
            obtain ⟨b, hb, hbc, hbp⟩ := hI1.que _ _ c (k2.shrink.queued _ _ hc) (mem_ord.mp hm)
            have l3 : s3.lastHash = s.lastHash := k3.shrink.lastHash
            have q3 : s3.queued.get? s.lastHash = s.queued.get? s.lastHash := k3.que s.lastHash (.inr rfl)
            refine (ih s3 c (by rw [l3]; exact hA) (hI1.shrink k3.shrink) ?_ ?_ ?_).imp (fun s4 h4 => ⟨k3.trans h4.1, h4.2.trans f3⟩)
            · intro hc
              rcases hA.high b hb (hbc ▸ hc) with e | e
              · exact hxl (hbp.symm.trans e)
              · exact hx (hbp ▸ e)
            · intro e
              rw [l3] at e ⊢
              rw [q3]
              rcases hf with hf | hf
              · exfalso
                refine hnf ?_
                simp only [LRU.contains, decide_eq_true_eq]
                rw [e, f3]; exact hf
              · exact hf
            · rw [l3, f3, q3]; exact hf
        · rintro s4 ⟨k4, f4⟩
          refine ⟨back s4 _ k4 (Sub.erase _ _) ?_, f4⟩
          intro p hp
          rw [GMap.get?_erase, if_neg]
          intro e
          rcases hp with hp | hp
          · exact hx (by rw [e]; exact hp)
          · exact hxl (e.trans hp)

theorem LRU.add_drops {K : Type} [DecidableEq K] {c : LRU K} {h k : K} (h0 : 0 < c.cap) (hk : (c.add h).2 = some k) :
    k ∈ c.items ∧ k ≠ h ∧ h ∈ (c.add h).1.items := by
  unfold LRU.add at hk ⊢
  split
  · rename_i hm; rw [if_pos hm] at hk; simp at hk
  · rename_i hm
    rw [if_neg hm] at hk
    split
    · rename_i hl; rw [if_pos hl] at hk; simp at hk
    · rename_i hl
      rw [if_neg hl] at hk
      cases hi : c.items with
      | nil => rw [hi] at hl; simp at hl; omega
      | cons a l =>
        rw [hi] at hk hm
        simp only [List.getLast?_cons_cons] at hk
        have := List.mem_of_getLast? hk
        exact ⟨this, fun e => hm (e ▸ this), by simp⟩

theorem finAdd_keep {hs : List Hash} (s : OMP) {h : Hash} (hA : Apart D hs s.lastHash) (hI : OInv D s) (h0 : 0 < s.finished.cap)
    (hf : ∀ x ∈ s.finished.items, x ∉ hs) (hq : h = s.lastHash ∨ s.queued.get? s.lastHash = none) :
    Out (· = Fault.hang) (Keep D hs (· = h) s) (s.finAdd o h) := by
  unfold OMP.finAdd
  have h1 : Keep D hs (· = h) s { s with finished := (s.finished.add h).1 } :=
    ⟨⟨rfl, rfl, rfl, rfl, rfl, rfl, Sub.refl _, Sub.refl _, LRU.add_cap _ _, fun x hx => by
      rcases LRU.mem_of_mem_add hx with e | e
      · exact .inr e
      · exact .inl e, [], by simp, OnlyEvicts.nil, fun _ => ⟨rfl, rfl⟩⟩, fun _ _ => rfl, fun _ _ => rfl, [], by simp, EvictsLow.nil⟩
  simp only []
  split
  · exact h1
  · rename_i k hk
    obtain ⟨d1, d2, d3⟩ := LRU.add_drops h0 hk
    refine (evict_keep (o := o) (F := (· = h)) _ { s with finished := (s.finished.add h).1 } k hA (hI.of_maps rfl rfl) (hf k d1) ?_ ?_).imp
      (fun _ h2 => h1.trans h2.1)
    · intro e
      rcases hq with hq | hq
      · exact (d2 (e.trans hq.symm)).elim
      · exact hq
    · rcases hq with hq | hq
      · left
        simp only []
        rw [← hq]; exact d3
      · exact .inr hq

/-! ### The state -/

/-- The chain has been emitted up to `em`; the blocks of `E` have been delivered. -/
structure Res (D E : PB → Prop) (wl : GMap Nat Hash) (root : Hash) (w : Nat) (em rest : List PB) (s : OMP) : Prop where
  inv : OInv D s
  init : s.initEmpty = false
  wl : s.whitelist = wl
  bl : ∀ h, s.blacklist.contains h = false
  cap : 0 < s.finished.cap
  last : s.lastHash = endOf root em
  weight : s.lastWeight = endWeight w em
  fin : ∀ x ∈ s.finished.items, x ∉ hashes rest
  held : ∀ p q c, s.queued.get? p = some q → c ∈ q.keys → c ∈ hashes rest → ∃ b, s.pending.get? c = some b
  wait : ∀ b, E b → b.hash ∈ hashes rest → ∃ q, s.queued.get? b.parentHash = some q ∧ b.hash ∈ q.keys

section
variable {root : Hash} {w : Nat} {em rest : List PB} {wl : GMap Nat Hash} {s s' : OMP} {W : World}

theorem Resumes.apart (h : Resumes root w (em ++ rest) D) (hs : Res D E wl root w em rest s) : Apart D (hashes rest) s.lastHash :=
  ⟨fun b hb hn => by rw [hs.last]; exact ⟨(h.low hb hn).1, (h.low hb hn).2.1⟩, fun b hb hn => by rw [hs.last]; exact (h.high hb hn).1⟩

theorem Res.keep {F : Hash → Prop} (hR : Resumes root w (em ++ rest) D) (hE : ∀ b, E b → D b) (h : Res D E wl root w em rest s)
    (hk : Keep D (hashes rest) F s s') (hF : ∀ x, F x → x ∉ hashes rest) : Res D E wl root w em rest s' := by
  refine ⟨h.inv.shrink hk.shrink, hk.shrink.initEmpty.trans h.init, hk.shrink.whitelist.trans h.wl, ?_, by rw [hk.shrink.cap]; exact h.cap,
    hk.shrink.lastHash.trans h.last, hk.shrink.lastWeight.trans h.weight, ?_, ?_, ?_⟩
  · rw [hk.shrink.blacklist]; exact h.bl
  · intro x hx
    rcases hk.shrink.finished x hx with e | e
    · exact h.fin x e
    · exact hF x e
  · intro p q c hq hc hr
    rw [hk.pend c hr]
    exact h.held p q c (hk.shrink.queued _ _ hq) hc hr
  · intro b hb hr
    rw [hk.que b.parentHash (by
      rcases (hR.high (hE b hb) hr).1 with e | e
      · exact .inr (by rw [h.last]; exact e)
      · exact .inl e)]
    exact h.wait b hb hr

/-- Above the end, only blocks of the rest wait. -/
theorem Res.above (hR : Resumes root w (em ++ rest) D) (h : Res D E wl root w em rest s) {p d : Hash} (hW : Waits s.queued p d)
    (hp : p = s.lastHash ∨ p ∈ hashes rest) : d = p ∨ (d ∈ hashes rest ∧ ∃ p' q, s.queued.get? p' = some q ∧ d ∈ q.keys) := by
  induction hW with
  | self => exact .inl rfl
  | @step p c d q h1 h2 _ ih =>
    have hm := (GMap.contains_iff_mem_keys _).mp h2
    obtain ⟨b, hb, e1, e2⟩ := h.inv.que _ _ _ h1 hm
    have hc : c ∈ hashes rest := by
      by_cases hc : c ∈ hashes rest
      · exact hc
      · have := hR.low hb (e1 ▸ hc)
        rw [e2, ← h.last] at this
        rcases hp with e | e
        · exact (this.2.1 e).elim
        · exact (this.1 e).elim
    rcases ih (.inr hc) with e | e
    · exact .inr ⟨e ▸ hc, p, q, h1, e ▸ hm⟩
    · exact .inr e

theorem Res.chosen (hR : Resumes root w (em ++ rest) D) (hN : ∀ b, D b → W.Numbered b) (h : Res D E wl root w em rest s) {c : Hash}
    (hg : s.getPendingChild o s.lastHash = .ok (some c)) :
    ∃ b, s.pending.get? c = some b ∧ D b ∧ b.hash = c ∧ b.parentHash = s.lastHash ∧ ∀ q, s.queued.get? s.lastHash = some q → ∀ k ∈ q.keys, k = c := by
  obtain ⟨q, M, hq, hM, hc⟩ := getPendingChild_best hg
  have only : ∀ k ∈ q.keys, ∃ x rest', rest = x :: rest' ∧ x.hash = k := by
    intro k hk
    obtain ⟨b, hb, e1, e2⟩ := h.inv.que _ _ _ hq hk
    obtain ⟨x, r, e, hs⟩ := hR.next hb (e2.trans h.last)
    exact ⟨x, r, e, hs.hash.trans e1⟩
  obtain ⟨d, h1, h2⟩ := leaf_exists hN h.inv s.lastHash
  rcases h.above hR h1 (.inl rfl) with e | ⟨hd, p', q', h3, h4⟩
  · rw [e, hq] at h2; simp at h2
  · obtain ⟨b, hb⟩ := h.held _ _ _ h3 h4 hd
    obtain ⟨e1, e2⟩ := h.inv.pend _ _ hb
    have hbw := (hR.high e2 (by rw [e1]; exact hd)).2
    have hpos := hM d h1 h2
    unfold wt at hpos
    rw [hb] at hpos
    simp only [Option.map_some, Option.getD_some] at hpos
    rcases hc with ⟨h0, _⟩ | ⟨_, hm, _⟩
    · omega
    · obtain ⟨x, r, e, hx⟩ := only c hm
      obtain ⟨cb, hcb⟩ := h.held _ _ _ hq hm (by rw [e, ← hx]; simp [hashes])
      obtain ⟨g1, g2, g3, _⟩ := h.inv.child hR.hashed hq (.inl hm) hcb
      refine ⟨cb, hcb, g3, g2, g1, ?_⟩
      intro q1 hq1 k hk
      rw [hq] at hq1
      obtain rfl := Option.some.inj hq1
      obtain ⟨x', r', e', hx'⟩ := only k hk
      rw [e] at e'
      simp only [List.cons.injEq] at e'
      rw [← hx', ← e'.1, hx]

/-- The next block of the chain is emitted. -/
theorem Res.next {x : PB} {pb : PB} (hR : Resumes root w (em ++ x :: rest) D) (hE : ∀ b, E b → D b) (h : Res D E wl root w em (x :: rest) s)
    (hx : Same x pb) (k : Nat) :
    Out (· = Fault.hang) (fun s2 => Res D E wl root w (em ++ [x]) rest s2 ∧ s2.lastHash = pb.hash ∧
      ∃ l, s2.log = s.log ++ l ∧ EvictsLow D (hashes rest) l)
      (OMP.finAdd o { s with lastHash := pb.hash, lastWeight := pb.weight, tick := k } pb.hash) := by
  have ea : em ++ x :: rest = (em ++ [x]) ++ rest := by simp
  rw [ea] at hR
  have sub : ∀ y ∈ hashes rest, y ∈ hashes (x :: rest) := fun y hy => by simp only [hashes, List.map_cons]; exact List.mem_cons_of_mem _ hy
  have h1 : Res D E wl root w (em ++ [x]) rest { s with lastHash := pb.hash, lastWeight := pb.weight, tick := k } := by
    refine ⟨h.inv.of_maps rfl rfl, h.init, h.wl, h.bl, h.cap, ?_, ?_, fun y hy hr => h.fin y hy (sub y hr), fun p q c hq hc hr => h.held p q c hq hc (sub c hr),
      fun b hb hr => h.wait b hb (sub _ hr)⟩
    · rw [endOf_append]; exact hx.hash.symm
    · rw [endWeight_append]; exact hx.weight.symm
  have hnot : pb.hash ∉ hashes rest := by
    have hnd := hR.nodup
    rw [hashes_append, ← List.cons_append, List.nodup_append] at hnd
    intro hm
    exact hnd.2.2 x.hash (by simp [hashes]) _ hm hx.hash
  refine (finAdd_keep (o := o) (D := D) (hs := hashes rest) { s with lastHash := pb.hash, lastWeight := pb.weight, tick := k }
    (hR.apart h1) h1.inv h1.cap h1.fin (.inl rfl)).imp ?_
  intro s2 hk
  exact ⟨h1.keep hR hE hk (fun y e => by rw [e]; exact hnot), hk.shrink.lastHash, hk.log⟩

theorem emitLoop_res (hN : ∀ b, D b → W.Numbered b) (hE : ∀ b, E b → D b) (n : Nat) (s : OMP) (new em rest : List PB)
    (hR : Resumes root w (em ++ rest) D) (hs : Res D E wl root w em rest s) :
    Out (· = Fault.hang) (fun r => ∃ ext rest' exb, rest = ext ++ rest' ∧ r.2 = new ++ exb ∧ hashes exb = hashes ext ∧
      Res D E wl root w (em ++ ext) rest' r.1 ∧ r.1.queued.get? r.1.lastHash = none ∧ ∃ l, r.1.log = s.log ++ l ∧ EvictsLow D (hashes rest') l)
      (OMP.emitLoop o n s new) := by
  induction n generalizing s new em rest with
  | zero => exact rfl
  | succ n ih =>
    unfold OMP.emitLoop
    obtain ⟨r, hr, _⟩ := (getPendingChild_total (o := o) s (hs.inv.ranked hN) s.lastHash).total
    rw [hr]
    show Out _ _ (match r with | none => _ | some hash => _)
    cases r with
    | none => exact ⟨[], rest, [], by simp, by simp, rfl, by simpa using hs, getPendingChild_none hr, [], by simp, EvictsLow.nil⟩
    | some c =>
      obtain ⟨b, hb, hbD, hbc, hpar, honly⟩ := hs.chosen hR hN hr
      simp only []
      rw [hb]
      simp only []
      obtain ⟨x, rest', rfl, hx⟩ := hR.next hbD (hpar.trans hs.last)
      obtain ⟨k, hk⟩ := finishSiblings_only (o := o) { s with tick := s.tick + 1 } b (by
        intro q hq c' hc'
        simp only [] at hq
        rw [hpar] at hq
        rw [hbc]; exact honly q hq c' hc')
      rw [hk]
      refine (hs.next (o := o) hR hE hx k).bind ?_
      rintro s2 ⟨hs2, _, l, hlog, hl⟩
      have ea : em ++ x :: rest' = (em ++ [x]) ++ rest' := by simp
      rw [ea] at hR
      refine (ih s2 (new ++ [b]) (em ++ [x]) rest' hR hs2).imp ?_
      rintro r ⟨ext, r', exb, g1, g2, g3, g4, g6, l', g7, g8⟩
      refine ⟨x :: ext, r', b :: exb, by rw [g1]; rfl, by rw [g2]; simp, ?_, by simpa using g4, g6, l ++ l', by rw [g7, hlog]; simp,
        (hl.mono (fun k hk => by rw [g1, hashes_append]; simp [hk])).append g8⟩
      simp only [hashes, List.map_cons] at g3 ⊢
      rw [g3, hx.hash]

/-- Queueing a block. -/
theorem Res.queue (h : Res D E wl root w em rest s) {pb : PB} (hD : D pb)
    (hp : pb.hash ∈ hashes rest → ∃ b, s.pending.get? pb.hash = some b) : Res D E wl root w em rest (s.queue pb) := by
  refine ⟨h.inv.queue hD, h.init, h.wl, h.bl, h.cap, h.last, h.weight, h.fin, ?_, ?_⟩
  · intro p q c hq hc hr
    simp only [OMP.queue, GMap.get?_insert] at hq
    split at hq
    · cases hq
      rcases mem_keys_insert.mp hc with hc | hc
      · subst hc; exact hp hr
      · cases hg : s.queued.get? pb.parentHash with
        | none => rw [hg] at hc; simp [GMap.keys, GMap.empty] at hc
        | some q0 => rw [hg] at hc; exact h.held _ q0 c hg hc hr
    · exact h.held _ _ _ hq hc hr
  · intro b hb hr
    simp only [OMP.queue, GMap.get?_insert]
    split
    · rename_i e
      refine ⟨_, rfl, mem_keys_insert.mpr (.inr ?_)⟩
      obtain ⟨q, h1, h2⟩ := h.wait b hb hr
      rw [e, h1]; exact h2
    · exact h.wait b hb hr

theorem queue_tip {pb : PB} (h : s.queued.get? s.lastHash = none) (hp : pb.parentHash ≠ s.lastHash) :
    (s.queue pb).queued.get? (s.queue pb).lastHash = none := by
  simp only [OMP.queue, GMap.get?_insert]
  rw [if_neg hp]; exact h

/-- Putting a block into `pending`. -/
theorem Res.put (h : Res D E wl root w em rest s) {pb : PB} (hD : D pb) :
    Res D E wl root w em rest { s with pending := s.pending.insert pb.hash pb } := by
  refine ⟨h.inv.insert hD, h.init, h.wl, h.bl, h.cap, h.last, h.weight, h.fin, ?_, h.wait⟩
  intro p q c hq hc hr
  simp only [GMap.get?_insert]
  split
  · exact ⟨_, rfl⟩
  · exact h.held p q c hq hc hr

theorem Res.admits (h : Res D E wl root w em rest s) {pb : PB} (hF : ¬ Forbidden wl pb) : s.excludes pb = false := by
  cases he : s.excludes pb with
  | false => rfl
  | true =>
    rcases (excludes_iff s pb).mp he with h1 | h1
    · rw [h.wl] at h1; exact (hF h1).elim
    · rw [h.bl] at h1; simp at h1

/-- A block that is no block of the rest changes nothing that matters. -/
theorem handle_low (hN : ∀ b, D b → W.Numbered b) (hE : ∀ b, E b → D b) (hF : ∀ b, D b → ¬ Forbidden wl b)
    (hR : Resumes root w (em ++ rest) D) (n : Nat) (s : OMP) (pb : PB) (reorg : Bool) (hs : Res D E wl root w em rest s)
    (ht : s.queued.get? s.lastHash = none) (hD : D pb) (hlow : pb.hash ∉ hashes rest) :
    Out (· = Fault.hang) (fun s' => Res D E wl root w em rest s' ∧ s'.queued.get? s'.lastHash = none ∧
      ∃ l, s'.log = s.log ++ l ∧ EvictsLow D (hashes rest) l) (OMP.handleAux o n s pb reorg) := by
  induction n generalizing s pb reorg with
  | zero => exact rfl
  | succ n ih =>
    unfold OMP.handleAux
    rw [hs.admits (hF pb hD)]
    simp only [Bool.false_eq_true, if_false]
    have h1 := hs.put hD
    have ht1 : ({ s with pending := s.pending.insert pb.hash pb } : OMP).queued.get? ({ s with pending := s.pending.insert pb.hash pb } : OMP).lastHash = none := ht
    have hlog1 : ({ s with pending := s.pending.insert pb.hash pb } : OMP).log = s.log := rfl
    rw [← hlog1]
    clear hlog1
    generalize ({ s with pending := s.pending.insert pb.hash pb } : OMP) = s1 at *
    obtain ⟨l1, l2, l3⟩ := hR.low hD hlow
    have hpne : pb.parentHash ≠ s1.lastHash := by rw [h1.last]; exact l2
    have hfin : Out (· = Fault.hang) (fun s' => Res D E wl root w em rest s' ∧ s'.queued.get? s'.lastHash = none ∧ s'.lastHash = s1.lastHash ∧
        ∃ l, s'.log = s1.log ++ l ∧ EvictsLow D (hashes rest) l) (s1.finAdd o pb.hash) := by
      refine (finAdd_keep (o := o) (D := D) (hs := hashes rest) s1 (hR.apart h1) h1.inv h1.cap h1.fin (.inr ht1)).imp ?_
      intro s2 hk
      refine ⟨h1.keep hR hE hk (fun y e => by rw [e]; exact hlow), ?_, hk.shrink.lastHash, hk.log⟩
      rw [hk.shrink.lastHash, hk.que _ (.inr rfl)]; exact ht1
    unfold OMP.accept
    split
    · exact ⟨h1, ht1, [], by simp, EvictsLow.nil⟩
    · rw [if_neg (by simp [h1.init])]
      split
      · unfold OMP.onConnected
        have hlight : decide (s1.lastWeight < pb.weight) = false := by
          rw [h1.weight]; simp only [decide_eq_false_iff_not]; omega
        split
        · rename_i hh; rw [hlight] at hh; simp at hh
        refine hfin.bind ?_
        rintro s2 ⟨h2, ht2, e2, l, hlog, hl⟩
        have hpne2 : pb.parentHash ≠ s2.lastHash := by rw [e2]; exact hpne
        obtain ⟨r, hr, hspec⟩ := (getPendingChild_spec (o := o) s2 (h2.inv.ranked hN) pb.hash).total
        rw [hr]
        show Out _ _ (match r with | none => _ | some child => _)
        cases r with
        | none =>
          exact ⟨h2.queue hD (fun h => (hlow h).elim), queue_tip ht2 hpne2, l, hlog, hl⟩
        | some c =>
          obtain ⟨q, hq, hc⟩ := hspec
          simp only []
          split
          · exact ⟨Res.queue (s := { s2 with tick := s2.tick + 1 }) ⟨h2.inv.of_maps rfl rfl, h2.init, h2.wl, h2.bl, h2.cap, h2.last, h2.weight, h2.fin, h2.held, h2.wait⟩ hD
              (fun h => (hlow h).elim), queue_tip (s := { s2 with tick := s2.tick + 1 }) ht2 hpne2, l, hlog, hl⟩
          · rename_i cb hcb
            obtain ⟨g1, g2, g3, g4⟩ := h2.inv.child hR.hashed hq hc hcb
            have hcl : cb.hash ∉ hashes rest := by
              intro hm
              rcases (hR.high g3 hm).1 with e | e
              · rw [g1, ← h2.last] at e
                rw [e, ht2] at hq; simp at hq
              · rw [g1] at e; exact hlow e
            refine (ih { s2 with tick := s2.tick + 1 } cb true ⟨h2.inv.of_maps rfl rfl, h2.init, h2.wl, h2.bl, h2.cap, h2.last, h2.weight, h2.fin, h2.held, h2.wait⟩
              ht2 g3 hcl).bind ?_
            rintro s3 ⟨h3, ht3, l', hlog', hl'⟩
            refine ⟨h3.queue hD (fun h => (hlow h).elim), queue_tip ht3 (by rw [h3.last]; exact l2), l ++ l', ?_, hl.append hl'⟩
            show s3.log = _
            rw [hlog']
            simp only []
            rw [hlog]; simp
      · unfold OMP.onUnconnected
        split
        · split
          · refine ⟨⟨h1.inv.erase _, h1.init, h1.wl, h1.bl, h1.cap, h1.last, h1.weight, h1.fin, ?_, h1.wait⟩, ht1, [], by simp, EvictsLow.nil⟩
            intro p q c hq hc hr
            simp only []
            rw [GMap.get?_erase, if_neg (fun e => hlow (by rw [e]; exact hr))]
            exact h1.held p q c hq hc hr
          · refine hfin.bind ?_
            rintro s2 ⟨h2, ht2, e2, l, hlog, hl⟩
            exact ⟨h2.queue hD (fun h => (hlow h).elim), queue_tip ht2 (by rw [e2]; exact hpne), l, hlog, hl⟩
        · exact ⟨h1.queue hD (fun h => (hlow h).elim), queue_tip ht1 hpne, [], by simp [OMP.queue], EvictsLow.nil⟩

end

/-- The invariant of a whole delivery: `pre` has been delivered. -/
structure Resumed (D : PB → Prop) (wl : GMap Nat Hash) (root : Hash) (w : Nat) (chain pre em rest : List PB) (s : OMP) : Prop where
  split : chain = em ++ rest
  res : Res D (· ∈ pre) wl root w em rest s
  tip : s.queued.get? s.lastHash = none
  noRemoved : ∀ x ∈ s.log, (∃ a, x = .update a []) ∨ ∃ b, D b ∧ b.hash ∉ hashes rest ∧ x = .evictOlder b.number
  added : addedHashes s.log = hashes em

theorem added_low {hs : List Hash} {l : List OOut} (h : EvictsLow D hs l) : l.flatMap addedBy = [] := by
  rw [List.flatMap_eq_nil_iff]
  intro x hx
  obtain ⟨b, _, _, rfl⟩ := h x hx
  rfl

theorem resume_step {W : World} {wl : GMap Nat Hash} {root : Hash} {w : Nat} {chain pre em rest : List PB} {pb : PB} {s : OMP}
    (hN : ∀ b, D b → W.Numbered b) (hF : ∀ b, D b → ¬ Forbidden wl b) (hR : Resumes root w chain D) (hpre : ∀ b ∈ pre ++ [pb], D b)
    (hs : Resumed D wl root w chain pre em rest s) :
    Out (· = Fault.hang) (fun s' => ∃ em' rest', Resumed D wl root w chain (pre ++ [pb]) em' rest' s') (s.handle o pb) := by
  obtain ⟨rfl, h, ht, hnr, hadd⟩ := hs
  have hE : ∀ b, b ∈ pre → D b := fun b hb => hpre b (by simp [hb])
  have hD : D pb := hpre pb (by simp)
  by_cases hlow : pb.hash ∈ hashes rest
  · unfold OMP.handle OMP.handleAux
    rw [h.admits (hF pb hD)]
    simp only [Bool.false_eq_true, if_false]
    have h1 := h.put hD
    obtain ⟨hp, hheavy⟩ := hR.high hD hlow
    have hnf : s.finished.contains pb.hash = false := by
      simp only [LRU.contains, decide_eq_false_iff_not]
      exact fun hm => h.fin _ hm hlow
    unfold OMP.accept
    rw [hnf]
    simp only [Bool.false_and, Bool.false_eq_true, if_false]
    split
    · rename_i hlast
      obtain ⟨x, rest', rfl, hx⟩ := hR.next hD (hlast.trans h.last)
      unfold OMP.prepareEmit
      have hstart : ∃ k, OMP.emitStart o { s with pending := s.pending.insert pb.hash pb } [pb] =
          OMP.finAdd o { s with pending := s.pending.insert pb.hash pb, lastHash := pb.hash, lastWeight := pb.weight, tick := k } pb.hash := by
        unfold OMP.emitStart
        simp only [List.getLast?_singleton]
        obtain ⟨k, hk⟩ := finishSiblings_only (o := o)
          { s with pending := s.pending.insert pb.hash pb, lastHash := pb.hash, lastWeight := pb.weight } pb (by
            intro q hq
            simp only [] at hq
            rw [hlast, ht] at hq; simp at hq)
        refine ⟨k, ?_⟩
        rw [hk]; rfl
      obtain ⟨k, hk⟩ := hstart
      rw [hk]
      refine (h1.next (o := o) hR hE hx k).bind ?_
      rintro s1 ⟨hs1, _, l, hlog, hlo⟩
      have ea : em ++ x :: rest' = (em ++ [x]) ++ rest' := by simp
      have hR' := hR
      rw [ea] at hR'
      refine (emitLoop_res (o := o) hN hE (s1.queued.size + 2) s1 [pb] (em ++ [x]) rest' hR' hs1).bind ?_
      rintro r ⟨ext, r', exb, g1, g2, g3, g4, g6, l', g7, g8⟩
      have hlog' : r.1.log = s.log ++ (l ++ l') := by rw [g7, hlog]; simp
      have hsub : ∀ k ∈ hashes r', k ∈ hashes rest' := fun k hk => by rw [g1, hashes_append]; simp [hk]
      have hlo' := (hlo.mono hsub).append g8
      refine ⟨em ++ [x] ++ ext, r', by rw [g1]; simp, ⟨g4.inv.of_maps rfl rfl, g4.init, g4.wl, g4.bl, g4.cap, g4.last, g4.weight, g4.fin, g4.held, ?_⟩, g6, ?_, ?_⟩
      · intro b hb hr
        rcases List.mem_append.mp hb with hb | hb
        · exact g4.wait b hb hr
        · exfalso
          rw [List.mem_singleton.mp hb, ← hx.hash] at hr
          have hnd := hR'.nodup
          rw [hashes_append, ← List.cons_append, List.nodup_append] at hnd
          exact hnd.2.2 x.hash (by simp [hashes]) _ (hsub _ hr) rfl
      · intro z hz
        simp only [] at hz
        rw [hlog'] at hz
        rcases List.mem_append.mp hz with hz | hz
        · rcases List.mem_append.mp hz with hz | hz
          · rcases hnr z hz with h | ⟨b, hb, hn, e⟩
            · exact .inl h
            · exact .inr ⟨b, hb, fun hm => hn (by simp only [hashes, List.map_cons]; exact List.mem_cons_of_mem _ (hsub _ hm)), e⟩
          · exact .inr (hlo' z hz)
        · exact .inl ⟨_, List.mem_singleton.mp hz⟩
      · simp only []
        rw [hlog', g2]
        unfold addedHashes at hadd ⊢
        rw [List.flatMap_append, List.flatMap_append, added_low hlo', List.append_nil, hashes_append, hadd, hashes_append, hashes_append]
        simp only [List.flatMap_cons, List.flatMap_nil, addedBy, List.append_nil, List.append_assoc]
        rw [hashes_append, g3]
        simp [hashes, hx.hash]
    · rename_i hnl
      have hnl : pb.parentHash ≠ s.lastHash := hnl
      rw [if_neg (by simp [h.init])]
      have hpr : pb.parentHash ∈ hashes rest := hp.resolve_left (fun e => hnl (by rw [h.last]; exact e))
      have hnf2 : s.finished.contains pb.parentHash = false := by
        simp only [LRU.contains, decide_eq_false_iff_not]
        exact fun hm => h.fin _ hm hpr
      rw [hnf2]
      simp only [Bool.false_eq_true, if_false]
      unfold OMP.onUnconnected
      rw [if_neg (by rw [h1.weight]; omega)]
      have h2 := h1.queue (pb := pb) hD (fun _ => ⟨pb, by simp⟩)
      refine ⟨em, rest, rfl, { h2 with wait := ?_ }, queue_tip (s := { s with pending := s.pending.insert pb.hash pb }) ht hnl, hnr, hadd⟩
      intro b hb hr
      rcases List.mem_append.mp hb with hb | hb
      · exact h2.wait b hb hr
      · rw [List.mem_singleton.mp hb]
        simp only [OMP.queue]
        exact ⟨_, GMap.get?_insert_self .., mem_keys_insert.mpr (.inl rfl)⟩
  · unfold OMP.handle
    refine (handle_low (o := o) hN hE hF hR _ s pb false h ht hD hlow).imp ?_
    rintro s' ⟨h', ht', l, hlog, hl⟩
    refine ⟨em, rest, rfl, { h' with wait := ?_ }, ht', ?_, ?_⟩
    · intro b hb hr
      rcases List.mem_append.mp hb with hb | hb
      · exact h'.wait b hb hr
      · exact (hlow (List.mem_singleton.mp hb ▸ hr)).elim
    · intro z hz
      rw [hlog] at hz
      rcases List.mem_append.mp hz with hz | hz
      · exact hnr z hz
      · exact .inr (hl z hz)
    · rw [hlog]
      unfold addedHashes at hadd ⊢
      rw [List.flatMap_append, added_low hl, List.append_nil, hadd]

theorem resume_run {W : World} {wl : GMap Nat Hash} {root : Hash} {w : Nat} {chain post : List PB}
    (hN : ∀ b, D b → W.Numbered b) (hF : ∀ b, D b → ¬ Forbidden wl b) (hR : Resumes root w chain D) :
    ∀ {pre em rest : List PB} {s : OMP}, (∀ b ∈ pre ++ post, D b) → Resumed D wl root w chain pre em rest s →
    Out (· = Fault.hang) (fun s' => ∃ em' rest', Resumed D wl root w chain (pre ++ post) em' rest' s') (s.run o (post.map OOp.block)) := by
  induction post with
  | nil => intro pre em rest s _ h; rw [List.append_nil]; exact ⟨em, rest, h⟩
  | cons b post ih =>
    intro pre em rest s hD hs
    unfold OMP.run
    rw [List.map_cons, List.foldlM_cons]
    refine (resume_step hN hF hR (fun x hx => hD x (by
      rcases List.mem_append.mp hx with h | h
      · simp [h]
      · simp [List.mem_singleton.mp h])) hs).bind ?_
    rintro s' ⟨em', rest', h'⟩
    have := ih (pre := pre ++ [b]) (s := s') (fun x hx => hD x (by simpa using hx)) h'
    rw [List.append_assoc] at this
    exact this

end Verif
