import Verif.Props.Waiter
/-! C134: what the waiter keeps. -/
namespace Verif

/-- What the waiter's goroutines do by themselves: take an announcement, notice that a channel was closed, wake up. -/
inductive Spec.WOwn : WS → WS → Prop
  | take {s a q} : s.queue = a :: q → Spec.WOwn s (s.take a q)
  | hashFired {s l1 w l2 t} : s.watching = l1 ++ w :: l2 → w.ann.ch ∈ s.closed → ({ s with watching := l1 ++ l2 } : WS).hashFired w = .ok t → Spec.WOwn s t
  | numberFired {s l1 w l2} : s.watching = l1 ++ w :: l2 → w.nch ∈ s.closed → Spec.WOwn s (({ s with watching := l1 ++ l2 } : WS).numberFired w)
  | expire {s l1 e l2} : s.sleeping = l1 ++ e :: l2 → Spec.WOwn s (({ s with sleeping := l1 ++ l2 } : WS).expire e)

/-- They have nothing more to do. -/
def Spec.WSettled (s : WS) : Prop := ∀ t, ¬ Spec.WOwn s t

/-- A block was announced, and `Done` was not called on it since. -/
def Spec.Unfinished (s : WS) (a : Ann) : Prop := a ∈ s.anns ∧ (s.block a.block).waitCh = some a.ch

open Spec

variable {s : WS}

theorem Spec.WOwn.step {t : WS} (h : WOwn s t) : WS.Step s none (.ok t) := by
  cases h with
  | take h => exact .take h
  | hashFired h1 h2 h3 => rw [← h3]; exact .hashFired h1 h2
  | numberFired h1 h2 => exact .numberFired h1 h2
  | expire h => exact .expire h

/-- Every entry has somebody who will remove it. -/
structure WS.Inv3 (s : WS) : Prop where
  hash : ∀ h c, s.hashes.get? h = some c → (∃ w ∈ s.watching, w.ann.hash = h ∧ w.ann.ch = c) ∨ ∃ e ∈ s.sleeping, e.hash = h
  num : ∀ n c, s.numbers.get? n = some c → c ∈ s.closed → ∃ e ∈ s.sleeping, e.number = some n

/-- `Done` closes hash channels only and leaves the rest alone. -/
theorem doneAll_same (hi : s.Inv) {bs : List Nat} {t : WS} (ht : s.doneAll bs = .ok t) :
    t.hashes = s.hashes ∧ t.numbers = s.numbers ∧ t.watching = s.watching ∧ t.sleeping = s.sleeping ∧
    ∀ c ∈ t.closed, c ∈ s.closed ∨ ∃ a ∈ s.anns, a.ch = c := by
  induction bs generalizing s with
  | nil => simp only [WS.doneAll, Except.ok.injEq] at ht; subst ht; exact ⟨rfl, rfl, rfl, rfl, fun c hc => .inl hc⟩
  | cons b bs ih =>
    unfold WS.doneAll at ht
    split at ht
    · simp at ht
    · rename_i u hu
      obtain ⟨u', h1, h2, -⟩ := hi.done b
      rw [hu] at h1
      cases h1
      obtain ⟨i1, i2, i3, i4, i5⟩ := ih h2 ht
      unfold WS.done at hu
      split at hu
      · cases hu; exact ⟨i1, i2, i3, i4, i5⟩
      · rename_i c hc
        simp only [WS.close] at hu
        split at hu
        · simp at hu
        · cases hu
          refine ⟨i1, i2, i3, i4, fun x hx => ?_⟩
          rcases i5 x hx with h | ⟨a, ha, h⟩
          · rcases List.mem_cons.mp h with rfl | h
            · obtain ⟨a, ha, _, e⟩ := hi.wc_ann b x hc
              exact .inr ⟨a, ha, e⟩
            · exact .inl h
          · exact .inr ⟨a, ha, h⟩

theorem WS.Inv3.step (h : s.Inv3) (hi : s.Inv) {r : Option (WKey × WaitResult)} {t : WS} (hs : WS.Step s r (.ok t)) : t.Inv3 := by
  generalize hx : (Except.ok t : Except Fault WS) = x at hs
  cases hs with
  | newBlock => cases hx; exact ⟨h.hash, h.num⟩
  | foreign => cases hx; exact ⟨h.hash, h.num⟩
  | complete hb =>
    cases hx
    unfold WS.complete
    split <;> exact ⟨h.hash, h.num⟩
  | doneAll _ =>
    obtain ⟨e1, e2, e3, e4, e5⟩ := doneAll_same hi hx.symm
    refine ⟨fun hh c hg => ?_, fun n c hg hc => ?_⟩
    · rw [e3, e4]; exact h.hash hh c (by rw [← e1]; exact hg)
    · rw [e4]
      rw [e2] at hg
      rcases e5 c hc with hc | ⟨a, ha, e⟩
      · exact h.num n c hg hc
      · exact absurd e (hi.num_ann n c (.inl hg) a ha)
  | @take a q hq =>
    cases hx
    unfold WS.take
    cases hg : s.numbers.get? a.number with
    | some nch =>
      simp only [hg]
      refine ⟨fun hh c hc => ?_, h.num⟩
      replace hc : (s.hashes.insert a.hash a.ch).get? hh = some c := hc
      rw [GMap.get?_insert] at hc
      split at hc
      · next e => cases hc; exact .inl ⟨⟨nch, a⟩, by simp, e, rfl⟩
      · rcases h.hash hh c hc with ⟨w, hw, e⟩ | e
        · exact .inl ⟨w, List.mem_append_left _ hw, e⟩
        · exact .inr e
    | none =>
      simp only [hg]
      refine ⟨fun hh c hc => ?_, fun n c hc hcl => ?_⟩
      · replace hc : (s.hashes.insert a.hash a.ch).get? hh = some c := hc
        rw [GMap.get?_insert] at hc
        split at hc
        · next e => cases hc; exact .inl ⟨⟨s.next, a⟩, by simp, e, rfl⟩
        · rcases h.hash hh c hc with ⟨w, hw, e⟩ | e
          · exact .inl ⟨w, List.mem_append_left _ hw, e⟩
          · exact .inr e
      · replace hc : (s.numbers.insert a.number s.next).get? n = some c := hc
        rw [GMap.get?_insert] at hc
        split at hc
        · cases hc
          have := hi.closed_lt s.next hcl
          omega
        · exact h.num n c hc hcl
  | @hashFired l1 w l2 hw hc =>
    have hash : ∀ hh c, s.hashes.get? hh = some c → (∃ x ∈ l1 ++ l2, x.ann.hash = hh ∧ x.ann.ch = c) ∨
        ∃ e ∈ s.sleeping ++ [⟨some w.ann.number, w.ann.hash⟩], e.hash = hh := by
      intro hh c hg
      rcases h.hash hh c hg with ⟨x, hx, e1, e2⟩ | ⟨e, he, e1⟩
      · rw [hw] at hx
        rcases List.mem_append.mp hx with hx | hx
        · exact .inl ⟨x, by simp [hx], e1, e2⟩
        · rcases List.mem_cons.mp hx with rfl | hx
          · exact .inr ⟨⟨some x.ann.number, x.ann.hash⟩, by simp, e1⟩
          · exact .inl ⟨x, by simp [hx], e1, e2⟩
      · exact .inr ⟨e, by simp [he], e1⟩
    unfold WS.hashFired at hx
    simp only [] at hx
    split at hx
    · cases hx
      refine ⟨hash, fun n c hg hcl => ?_⟩
      obtain ⟨e, he, e1⟩ := h.num n c hg hcl
      exact ⟨e, List.mem_append_left _ he, e1⟩
    · rename_i hn
      simp only [WS.close] at hx
      rw [if_neg hn] at hx
      cases hx
      refine ⟨hash, fun n c hg hcl => ?_⟩
      rcases List.mem_cons.mp hcl with rfl | hcl
      · have := hi.num_inj n w.ann.number _ (.inl hg) (.inr ⟨w, hi.watching_taken w (by rw [hw]; simp), rfl, rfl⟩)
        exact ⟨⟨some w.ann.number, w.ann.hash⟩, by simp, by simp [this]⟩
      · obtain ⟨e, he, e1⟩ := h.num n c hg hcl
        exact ⟨e, List.mem_append_left _ he, e1⟩
  | @numberFired l1 w l2 hw hc =>
    cases hx
    refine ⟨fun hh c hg => ?_, fun n c hg hcl => ?_⟩
    · rcases h.hash hh c hg with ⟨x, hx, e1, e2⟩ | ⟨e, he, e1⟩
      · rw [hw] at hx
        rcases List.mem_append.mp hx with hx | hx
        · exact .inl ⟨x, List.mem_append_left _ hx, e1, e2⟩
        · rcases List.mem_cons.mp hx with rfl | hx
          · exact .inr ⟨⟨none, x.ann.hash⟩, List.mem_append_right _ (by simp), e1⟩
          · exact .inl ⟨x, List.mem_append_right _ hx, e1, e2⟩
      · exact .inr ⟨e, List.mem_append_left _ he, e1⟩
    · obtain ⟨e, he, e1⟩ := h.num n c hg hcl
      exact ⟨e, List.mem_append_left _ he, e1⟩
  | @expire l1 e l2 he =>
    cases hx
    have hsl : ∀ x ∈ s.sleeping, x = e ∨ x ∈ l1 ++ l2 := by
      intro x hx
      rw [he] at hx
      rcases List.mem_append.mp hx with hx | hx
      · exact .inr (by simp [hx])
      · rcases List.mem_cons.mp hx with rfl | hx
        · exact .inl rfl
        · exact .inr (by simp [hx])
    have hash : ∀ hh c, (s.hashes.erase e.hash).get? hh = some c → (∃ w ∈ s.watching, w.ann.hash = hh ∧ w.ann.ch = c) ∨ ∃ e ∈ l1 ++ l2, e.hash = hh := by
      intro hh c hg
      rw [GMap.get?_erase] at hg
      split at hg
      · simp at hg
      · next hne =>
        rcases h.hash hh c hg with e1 | ⟨x, hx, e1⟩
        · exact .inl e1
        · rcases hsl x hx with rfl | hx
          · exact absurd e1 hne
          · exact .inr ⟨x, hx, e1⟩
    unfold WS.expire
    cases hn : e.number with
    | none =>
      simp only []
      refine ⟨hash, fun n c hg hcl => ?_⟩
      obtain ⟨x, hx, e1⟩ := h.num n c hg hcl
      rcases hsl x hx with rfl | hx
      · rw [hn] at e1; simp at e1
      · exact ⟨x, hx, e1⟩
    | some m =>
      simp only []
      refine ⟨hash, fun n c hg hcl => ?_⟩
      replace hg : (s.numbers.erase m).get? n = some c := hg
      rw [GMap.get?_erase] at hg
      split at hg
      · simp at hg
      · next hne =>
        obtain ⟨x, hx, e1⟩ := h.num n c hg hcl
        rcases hsl x hx with rfl | hx
        · rw [hn] at e1; exact absurd (Option.some.inj e1) hne
        · exact ⟨x, hx, e1⟩
  | notFound _ => cases hx; exact h
  | found hl => cases hx; exact ⟨h.hash, h.num⟩
  | success hc _ => cases hx; exact ⟨h.hash, h.num⟩
  | timeout hc => cases hx; exact ⟨h.hash, h.num⟩
  | stop _ => cases hx; exact ⟨h.hash, h.num⟩

theorem WS.Reach.inv3 (h : WS.Reach s) : s.Inv3 := by
  induction h with
  | init => exact ⟨by simp [WS.init], by simp [WS.init]⟩
  | step hr hs ih => exact ih.step hr.inv hs

/-! ## Settling -/

def WS.work (s : WS) : Nat := 3 * s.queue.length + 2 * s.watching.length + s.sleeping.length

theorem own_work {t : WS} (h : WOwn s t) : t.work < s.work := by
  cases h with
  | take h =>
    unfold WS.take WS.work
    simp only [h]
    split <;> (simp only [List.length_append, List.length_cons, List.length_nil]; omega)
  | @hashFired l1 w l2 _ h1 h2 h3 =>
    unfold WS.hashFired at h3
    simp only [] at h3
    split at h3
    · cases h3
      unfold WS.work
      rw [h1]; simp; omega
    · simp only [WS.close] at h3
      split at h3
      · simp at h3
      · cases h3
        unfold WS.work
        rw [h1]; simp; omega
  | numberFired h1 h2 =>
    unfold WS.numberFired WS.work
    rw [h1]; simp; omega
  | expire h =>
    unfold WS.expire WS.work
    split <;> (simp only [h, List.length_append, List.length_cons]; omega)

/-- Several such steps. -/
inductive Spec.WOwns (s : WS) : WS → Prop
  | refl : Spec.WOwns s s
  | step {t u} : Spec.WOwns s t → WOwn t u → Spec.WOwns s u

/-- **C134**: left to itself the waiter comes to rest, from every state, and there is no endless execution of its own steps. -/
theorem C134_settles (hr : WS.Reach s) : (∃ t, WOwns s t ∧ WS.Reach t ∧ WSettled t) ∧ ∀ f : Nat → WS, ¬ ∀ n, WOwn (f n) (f (n + 1)) := by
  constructor
  · have : ∀ n, ∀ t : WS, t.work ≤ n → WOwns s t → WS.Reach t → ∃ t, WOwns s t ∧ WS.Reach t ∧ WSettled t := by
      intro n
      induction n with
      | zero =>
        intro t hn ho ht
        exact ⟨t, ho, ht, fun u hu => by have := own_work hu; omega⟩
      | succ n ih =>
        intro t hn ho ht
        by_cases hs : WSettled t
        · exact ⟨t, ho, ht, hs⟩
        · have : ∃ u, WOwn t u := Classical.byContradiction fun h => hs fun u hu => h ⟨u, hu⟩
          obtain ⟨u, hu⟩ := this
          exact ih u (by have := own_work hu; omega) (.step ho hu) (ht.step hu.step)
    exact this _ s (Nat.le_refl _) .refl hr
  · intro f hf
    have : ∀ n, (f n).work + n ≤ (f 0).work := by
      intro n
      induction n with
      | zero => omega
      | succ n ih => have := own_work (hf n); omega
    have := this ((f 0).work + 1)
    omega

theorem settled_iff : WSettled s ↔ s.queue = [] ∧ s.sleeping = [] ∧ ∀ w ∈ s.watching, w.ann.ch ∉ s.closed ∧ w.nch ∉ s.closed := by
  constructor
  · intro h
    refine ⟨?_, ?_, ?_⟩
    · cases hq : s.queue with
      | nil => rfl
      | cons a q => exact (h _ (.take hq)).elim
    · cases hq : s.sleeping with
      | nil => rfl
      | cons e l => exact (h _ (.expire (l1 := []) hq)).elim
    · intro w hw
      obtain ⟨l1, l2, e⟩ := List.append_of_mem hw
      have h2 : w.nch ∉ s.closed := fun hc => h _ (.numberFired e hc)
      refine ⟨fun hc => ?_, h2⟩
      refine h _ (.hashFired e hc (t := ?_) ?_)
      · exact { ({ s with watching := l1 ++ l2 } : WS) with sleeping := s.sleeping ++ [⟨some w.ann.number, w.ann.hash⟩], closed := w.nch :: s.closed }
      · unfold WS.hashFired
        simp only []
        rw [if_neg h2]
        unfold WS.close
        simp only []
        rw [if_neg h2]
  · rintro ⟨h1, h2, h3⟩ t ht
    cases ht with
    | take h => rw [h1] at h; simp at h
    | hashFired h hc _ => exact (h3 _ (by rw [h]; simp)).1 hc
    | numberFired h hc => exact (h3 _ (by rw [h]; simp)).2 hc
    | expire h => rw [h2] at h; simp at h

/-- **C134**: a waiter at rest keeps goroutines only for blocks that were announced and are not done, and entries only with such a goroutine, for the very channel of that block. -/
theorem C134_rest (hr : WS.Reach s) (h : WSettled s) :
    (∀ w ∈ s.watching, Unfinished s w.ann ∧ w.nch ∉ s.closed) ∧
    (∀ hash c, s.hashes.get? hash = some c → ∃ w ∈ s.watching, w.ann.hash = hash ∧ w.ann.ch = c) ∧
    (∀ n c, s.numbers.get? n = some c → ∃ w ∈ s.watching, w.ann.number = n ∧ w.nch = c) := by
  obtain ⟨h1, h2, h3⟩ := settled_iff.mp h
  have hi := hr.inv
  have hi3 := hr.inv3
  refine ⟨fun w hw => ⟨?_, (h3 w hw).2⟩, fun hash c hg => ?_, fun n c hg => ?_⟩
  · have ha := hi.taken_ann w (hi.watching_taken w hw)
    rcases hi.ann_open _ ha with ho | ho
    · exact ⟨ha, ho⟩
    · exact absurd ho.1 (h3 w hw).1
  · rcases hi3.hash hash c hg with e | ⟨e, he, _⟩
    · exact e
    · rw [h2] at he; simp at he
  · obtain ⟨w, hw, e1, e2⟩ := hi.num_taken n c hg
    rcases hi.ran w hw with h4 | h4
    · exact ⟨w, h4, e2, e1⟩
    · obtain ⟨e, he, _⟩ := hi3.num n c hg (by rw [← e1]; exact h4)
      rw [h2] at he; simp at he

/-- **C134**: when every announced block is done, nothing is left. -/
theorem C134_nothing (hr : WS.Reach s) (h : WSettled s) (hd : ∀ a, ¬ Unfinished s a) :
    s.watching = [] ∧ s.sleeping = [] ∧ s.queue = [] ∧ (∀ hash, s.hashes.get? hash = none) ∧ ∀ n, s.numbers.get? n = none := by
  obtain ⟨h1, h2, h3⟩ := C134_rest hr h
  obtain ⟨k1, k2, _⟩ := settled_iff.mp h
  have hw : s.watching = [] := by
    cases hw : s.watching with
    | nil => rfl
    | cons w ws => exact absurd (h1 w (by rw [hw]; simp)).1 (hd _)
  refine ⟨hw, k2, k1, fun hash => ?_, fun n => ?_⟩
  · cases hg : s.hashes.get? hash with
    | none => rfl
    | some c => obtain ⟨w, hw', _⟩ := h2 hash c hg; rw [hw] at hw'; simp at hw'
  · cases hg : s.numbers.get? n with
    | none => rfl
    | some c => obtain ⟨w, hw', _⟩ := h3 n c hg; rw [hw] at hw'; simp at hw'

/-- **C134**: a goroutine goes on only when `Done` was called on its block or on one of the same number. -/
theorem C134_stays (hr : WS.Reach s) {r : Option (WKey × WaitResult)} {t : WS} (hs : WS.Step s r (.ok t)) {w : Watch} (hw : w ∈ s.watching) :
    w ∈ t.watching ∨ ∃ a ∈ s.anns, a.number = w.ann.number ∧ (a.block, a.ch) ∈ s.dones := by
  have hi := hr.inv
  have key : ∀ x ∈ s.watching, (x.ann.ch ∈ s.closed ∨ x.nch ∈ s.closed) → ∃ a ∈ s.anns, a.number = x.ann.number ∧ (a.block, a.ch) ∈ s.dones := by
    intro x hx hc
    have ht := hi.watching_taken x hx
    rcases hc with hc | hc
    · exact ⟨x.ann, hi.taken_ann x ht, rfl, done_of_closed hi (hi.taken_ann x ht) hc⟩
    · obtain ⟨y, hy, _, e2, e3⟩ := hi.num_closed x.ann.number x.nch (.inr ⟨x, ht, rfl, rfl⟩) hc
      exact ⟨y.ann, hi.taken_ann y hy, e2, e3⟩
  have keep : ∀ {l1 l2 : List Watch} {x : Watch}, s.watching = l1 ++ x :: l2 → w = x ∨ w ∈ l1 ++ l2 := by
    intro l1 l2 x e
    rw [e] at hw
    rcases List.mem_append.mp hw with h | h
    · exact .inr (List.mem_append_left _ h)
    · rcases List.mem_cons.mp h with h | h
      · exact .inl h
      · exact .inr (List.mem_append_right _ h)
  generalize hx : (Except.ok t : Except Fault WS) = x at hs
  cases hs with
  | newBlock => cases hx; exact .inl hw
  | foreign => cases hx; exact .inl hw
  | complete hb => cases hx; unfold WS.complete; split <;> exact .inl hw
  | doneAll _ => rw [(doneAll_same hi hx.symm).2.2.1]; exact .inl hw
  | take hq =>
    cases hx
    unfold WS.take
    simp only []
    split <;> exact .inl (List.mem_append_left _ hw)
  | @hashFired l1 x l2 e hc =>
    rcases keep e with rfl | h
    · exact .inr (key w hw (.inl hc))
    · left
      unfold WS.hashFired at hx
      simp only [WS.close] at hx
      split at hx
      · cases hx; exact h
      · cases hx; exact h
  | @numberFired l1 x l2 e hc =>
    rcases keep e with rfl | h
    · exact .inr (key w hw (.inr hc))
    · cases hx; exact .inl h
  | expire e => cases hx; unfold WS.expire; split <;> exact .inl hw
  | notFound _ => cases hx; exact .inl hw
  | found hl => cases hx; exact .inl hw
  | success hc _ => cases hx; exact .inl hw
  | timeout hc => cases hx; exact .inl hw
  | stop _ => cases hx; exact .inl hw

/-! ## What is wrong -/

/-- One more announcement. -/
theorem one_more (hr : WS.Reach s) (h : WSettled s) (hst : s.stopped = false) (hash : Hash) (n : Int) :
    ∃ t w, WS.Reach t ∧ WSettled t ∧ t.stopped = false ∧ t.watching = s.watching ++ [w] ∧ w.ann.hash = hash ∧ w.ann.number = n ∧ t.dones = s.dones ∧
      t.anns = s.anns ++ [w.ann] ∧ t.hashes = s.hashes.insert hash s.next := by
  obtain ⟨h1, h2, h3⟩ := settled_iff.mp h
  have hi := hr.inv
  have hi3 := hr.inv3
  have r1 := hr.step (.newBlock (h := hash) (n := n))
  have hq : (s.newBlock hash n).queue = [⟨hash, n, s.next, s.nextBlock⟩] := by
    simp [WS.newBlock, WS.send, WS.setBlock, hst, h1]
  have r2 := r1.step (.take hq)
  have hnew : s.next ∉ s.closed := fun hc => by have := hi.closed_lt _ hc; omega
  have hnew' : s.next + 1 ∉ s.closed := fun hc => by have := hi.closed_lt _ hc; omega
  cases hg : s.numbers.get? n with
  | some c =>
    have hc : c ∉ s.closed := by
      intro hc
      obtain ⟨e, he, _⟩ := hi3.num n c hg hc
      rw [h2] at he; simp at he
    have e : (s.newBlock hash n).numbers.get? n = some c := hg
    have et : (s.newBlock hash n).take ⟨hash, n, s.next, s.nextBlock⟩ [] = { (s.newBlock hash n) with
        queue := [], hashes := s.hashes.insert hash s.next, watching := s.watching ++ [⟨c, ⟨hash, n, s.next, s.nextBlock⟩⟩],
        taken := s.taken ++ [⟨c, ⟨hash, n, s.next, s.nextBlock⟩⟩] } := by
      unfold WS.take
      simp only [e]
      rfl
    rw [et] at r2
    refine ⟨_, ⟨c, ⟨hash, n, s.next, s.nextBlock⟩⟩, r2, settled_iff.mpr ⟨rfl, h2, ?_⟩, hst, rfl, rfl, rfl, rfl, rfl, rfl⟩
    intro w hw
    rcases List.mem_append.mp hw with hw | hw
    · exact h3 w hw
    · rw [List.mem_singleton.mp hw]; exact ⟨hnew, hc⟩
  | none =>
    have e : (s.newBlock hash n).numbers.get? n = none := hg
    have et : (s.newBlock hash n).take ⟨hash, n, s.next, s.nextBlock⟩ [] = { (s.newBlock hash n) with
        queue := [], hashes := s.hashes.insert hash s.next, numbers := s.numbers.insert n (s.next + 1), next := s.next + 1 + 1,
        watching := s.watching ++ [⟨s.next + 1, ⟨hash, n, s.next, s.nextBlock⟩⟩],
        taken := s.taken ++ [⟨s.next + 1, ⟨hash, n, s.next, s.nextBlock⟩⟩] } := by
      unfold WS.take
      simp only [e]
      rfl
    rw [et] at r2
    refine ⟨_, ⟨s.next + 1, ⟨hash, n, s.next, s.nextBlock⟩⟩, r2, settled_iff.mpr ⟨rfl, h2, ?_⟩, hst, rfl, rfl, rfl, rfl, rfl, rfl⟩
    intro w hw
    rcases List.mem_append.mp hw with hw | hw
    · exact h3 w hw
    · rw [List.mem_singleton.mp hw]; exact ⟨hnew, hnew'⟩

/-- **C134** refuted: what is kept is bounded by nothing, even if a block of every height announced was done. Blocks of a height that was done longer than a minute ago (of a fork that was not
taken, say) are kept for ever: any number of goroutines, with as many entries as there are hashes. -/
theorem C134_bound_refuted (hashes : List Hash) : ∃ s, WS.Reach s ∧ WSettled s ∧ s.watching.map (·.ann.hash) = hashes ∧
    (∀ h ∈ hashes, s.hashes.get? h ≠ none) ∧ (∀ a ∈ s.anns, ∃ a' ∈ s.anns, a'.number = a.number ∧ (a'.block, a'.ch) ∈ s.dones) := by
  have hstart : ∃ s, WS.Reach s ∧ WSettled s ∧ s.stopped = false ∧ s.watching = [] ∧ s.anns = [⟨exHash 1, 5, 0, 0⟩] ∧ (0, 0) ∈ s.dones := by
    have h0 := WS.Reach.init.step (.newBlock (h := exHash 1) (n := 5))
    have h1 := h0.step (.take (a := ⟨exHash 1, 5, 0, 0⟩) (q := []) rfl)
    have h2 := h1.step (.doneAll (bs := [0]) (by decide))
    have h3 := h2.step (.hashFired (l1 := []) (w := ⟨1, ⟨exHash 1, 5, 0, 0⟩⟩) (l2 := []) rfl (by decide))
    have h4 := h3.step (.expire (l1 := []) (e := ⟨some 5, exHash 1⟩) (l2 := []) rfl)
    exact ⟨_, h4, settled_iff.mpr ⟨rfl, rfl, by decide⟩, rfl, rfl, rfl, by decide⟩
  suffices hs : ∃ s, WS.Reach s ∧ WSettled s ∧ s.stopped = false ∧ s.watching.map (·.ann.hash) = hashes ∧ (∀ h ∈ hashes, s.hashes.get? h ≠ none) ∧
      (∀ a ∈ s.anns, a.number = 5) ∧ (∃ a ∈ s.anns, a.number = 5 ∧ (a.block, a.ch) ∈ s.dones) by
    obtain ⟨s, h1, h2, _, h3, h4, h5, a, h6, h7, h8⟩ := hs
    exact ⟨s, h1, h2, h3, h4, fun x hx => ⟨a, h6, by rw [h7, h5 x hx], h8⟩⟩
  generalize hl : hashes.length = n
  induction n generalizing hashes with
  | zero =>
    rw [List.length_eq_zero_iff.mp hl]
    obtain ⟨s, h1, h2, h3, h4, h5, h6⟩ := hstart
    exact ⟨s, h1, h2, h3, by rw [h4]; rfl, by simp, by rw [h5]; simp, ⟨_, by rw [h5]; exact List.mem_singleton.mpr rfl, rfl, h6⟩⟩
  | succ n ih =>
    rcases List.eq_nil_or_concat hashes with rfl | ⟨hs, h, rfl⟩
    · simp at hl
    · rw [List.concat_eq_append] at hl ⊢
      obtain ⟨s, h1, h2, h3, h4, h5, h6, a, h7, h8, h9⟩ := ih hs (by simpa using hl)
      obtain ⟨t, w, k1, k2, k3, k4, k5, k6, k7, k8, k9⟩ := one_more h1 h2 h3 h 5
      refine ⟨t, k1, k2, k3, ?_, ?_, ?_, a, ?_, h8, ?_⟩
      · rw [k4, List.map_append, h4]; simp [k5]
      · intro x hx
        rw [k9, GMap.get?_insert]
        split
        · simp
        · next hne =>
          rcases List.mem_append.mp hx with hx | hx
          · exact h5 x hx
          · exact absurd (List.mem_singleton.mp hx).symm hne
      · intro x hx
        rw [k8] at hx
        rcases List.mem_append.mp hx with hx | hx
        · exact h6 x hx
        · rw [List.mem_singleton.mp hx]; exact k6
      · rw [k8]; exact List.mem_append_left _ h7
      · rw [k7]; exact h9

/-- C134: a block is announced, looked up, done; then everything is let go. -/
example : ∃ s, WS.Reach s ∧ WSettled s ∧ s.anns ≠ [] ∧ ∀ a, ¬ Unfinished s a := by
  have h0 := WS.Reach.init.step (.newBlock (h := exHash 1) (n := 5))
  have h1 := h0.step (.take (a := ⟨exHash 1, 5, 0, 0⟩) (q := []) rfl)
  have h2 := h1.step (.doneAll (bs := [0]) (by decide))
  have h3 := h2.step (.hashFired (l1 := []) (w := ⟨1, ⟨exHash 1, 5, 0, 0⟩⟩) (l2 := []) rfl (by decide))
  have h4 := h3.step (.expire (l1 := []) (e := ⟨some 5, exHash 1⟩) (l2 := []) rfl)
  refine ⟨_, h4, settled_iff.mpr ⟨rfl, rfl, by decide⟩, (fun e => by have : ([⟨exHash 1, 5, 0, 0⟩] : List Ann) = [] := e; simp at this), ?_⟩
  rintro a ⟨ha, hb⟩
  have : a = ⟨exHash 1, 5, 0, 0⟩ := List.mem_singleton.mp (show a ∈ [⟨exHash 1, 5, 0, 0⟩] from ha)
  subst this
  exact absurd hb (by decide +kernel)

end Verif
