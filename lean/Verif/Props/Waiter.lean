import Verif.Proofs.Waiter
import Verif.Props.ConsumerEx
/-!
# C55 to C57, C68: the waiter
-/
namespace Verif

variable {s : WS}

/-- What the sleeping goroutines and the expiries go back to. -/
structure WS.Inv2 (s : WS) : Prop where
  inv : s.Inv
  done_closed : ∀ b c, (b, c) ∈ s.dones → c ∈ s.closed
  sleep : ∀ e ∈ s.sleeping, ∃ w ∈ s.taken, w.ann.hash = e.hash ∧ w.nch ∈ s.closed ∧ ∀ n, e.number = some n → w.ann.number = n
  expired : ∀ k ∈ s.expired, ∃ w ∈ s.taken, w.nch ∈ s.closed ∧ (k = .hash w.ann.hash ∨ k = .number w.ann.number)
  num_same : ∀ w ∈ s.taken, .number w.ann.number ∉ s.expired → s.numbers.get? w.ann.number = some w.nch

theorem WS.Inv2.done (h : s.Inv2) {b : Nat} {t : WS} (ht : s.done b = .ok t) : t.Inv2 := by
  obtain ⟨t', h1, h2, _, h4, _⟩ := h.inv.done b
  rw [h1] at ht; cases ht
  unfold WS.done at h1
  split at h1
  · cases h1; exact h
  · rename_i c hc
    simp only [WS.close] at h1
    rw [if_neg (by exact h.inv.wc_open b c hc)] at h1
    simp only [Except.ok.injEq] at h1
    subst h1
    refine ⟨h2, ?_, ?_, ?_, h.num_same⟩
    · intro b' c' hbc
      rcases List.mem_cons.mp hbc with e | hbc
      · cases e; exact List.mem_cons_self ..
      · exact List.mem_cons_of_mem _ (h.done_closed b' c' hbc)
    · intro e he
      obtain ⟨w, hw, e1, e2, e3⟩ := h.sleep e he
      exact ⟨w, hw, e1, List.mem_cons_of_mem _ e2, e3⟩
    · intro k hk
      obtain ⟨w, hw, e1, e2⟩ := h.expired k hk
      exact ⟨w, hw, List.mem_cons_of_mem _ e1, e2⟩

theorem WS.Inv2.doneAll (h : s.Inv2) {bs : List Nat} {t : WS} (ht : s.doneAll bs = .ok t) : t.Inv2 := by
  induction bs generalizing s with
  | nil => simp only [WS.doneAll, Except.ok.injEq] at ht; rw [← ht]; exact h
  | cons b bs ih =>
    unfold WS.doneAll at ht
    split at ht
    · simp at ht
    · rename_i u hu; exact ih (h.done hu) ht

theorem WS.Inv2.step (h : s.Inv2) {r : Option (WKey × WaitResult)} {t : WS} (hs : WS.Step s r (.ok t)) : t.Inv2 := by
  have hinv : t.Inv := by obtain ⟨t', e, ht⟩ := h.inv.step hs; cases e; exact ht
  generalize hx : (Except.ok t : Except Fault WS) = x at hs
  cases hs with
  | newBlock => cases hx; exact ⟨hinv, h.done_closed, h.sleep, h.expired, h.num_same⟩
  | foreign => cases hx; exact ⟨hinv, h.done_closed, h.sleep, h.expired, h.num_same⟩
  | complete hb =>
    cases hx
    unfold WS.complete at hinv ⊢
    split at hinv <;> exact ⟨hinv, h.done_closed, h.sleep, h.expired, h.num_same⟩
  | doneAll _ => exact h.doneAll hx.symm
  | @take a q hq =>
    cases hx
    unfold WS.take at hinv ⊢
    cases hg : s.numbers.get? a.number with
    | some nch =>
      simp only [hg] at hinv ⊢
      refine ⟨hinv, h.done_closed, ?_, ?_, ?_⟩
      · intro e he
        obtain ⟨w, hw, hx⟩ := h.sleep e he
        exact ⟨w, List.mem_append_left _ hw, hx⟩
      · intro k hk
        obtain ⟨w, hw, hx⟩ := h.expired k hk
        exact ⟨w, List.mem_append_left _ hw, hx⟩
      · intro w hw hne
        rcases List.mem_append.mp hw with hw | hw
        · exact h.num_same w hw hne
        · rw [List.mem_singleton.mp hw]; exact hg
    | none =>
      simp only [hg] at hinv ⊢
      refine ⟨hinv, h.done_closed, ?_, ?_, ?_⟩
      · intro e he
        obtain ⟨w, hw, hx⟩ := h.sleep e he
        exact ⟨w, List.mem_append_left _ hw, hx⟩
      · intro k hk
        obtain ⟨w, hw, hx⟩ := h.expired k hk
        exact ⟨w, List.mem_append_left _ hw, hx⟩
      · intro w hw hne
        show (s.numbers.insert a.number s.next).get? w.ann.number = some w.nch
        rw [GMap.get?_insert]
        rcases List.mem_append.mp hw with hw | hw
        · have := h.num_same w hw hne
          split
          · rename_i e; rw [← e, hg] at this; simp at this
          · exact this
        · rw [List.mem_singleton.mp hw]; simp
  | @hashFired l1 w l2 hw hc =>
    have hwt : w ∈ s.taken := h.inv.watching_taken w (by rw [hw]; simp)
    unfold WS.hashFired at hx
    simp only [] at hx
    split at hx
    · rename_i hn
      cases hx
      refine ⟨hinv, h.done_closed, ?_, h.expired, h.num_same⟩
      intro e he
      rcases List.mem_append.mp he with he | he
      · exact h.sleep e he
      · rw [List.mem_singleton.mp he]; exact ⟨w, hwt, rfl, hn, fun n e => Option.some.inj e⟩
    · rename_i hn
      simp only [WS.close] at hx
      rw [if_neg hn] at hx
      cases hx
      refine ⟨hinv, fun b c hbc => List.mem_cons_of_mem _ (h.done_closed b c hbc), ?_, ?_, h.num_same⟩
      · intro e he
        rcases List.mem_append.mp he with he | he
        · obtain ⟨w, hw, e1, e2, e3⟩ := h.sleep e he
          exact ⟨w, hw, e1, List.mem_cons_of_mem _ e2, e3⟩
        · rw [List.mem_singleton.mp he]; exact ⟨w, hwt, rfl, List.mem_cons_self .., fun n e => Option.some.inj e⟩
      · intro k hk
        obtain ⟨w, hw, e1, e2⟩ := h.expired k hk
        exact ⟨w, hw, List.mem_cons_of_mem _ e1, e2⟩
  | @numberFired l1 w l2 hw hc =>
    have hwt : w ∈ s.taken := h.inv.watching_taken w (by rw [hw]; simp)
    cases hx
    refine ⟨hinv, h.done_closed, ?_, h.expired, h.num_same⟩
    intro e he
    rcases List.mem_append.mp he with he | he
    · exact h.sleep e he
    · rw [List.mem_singleton.mp he]; exact ⟨w, hwt, rfl, hc, by simp⟩
  | @expire l1 e l2 he =>
    cases hx
    obtain ⟨w, hw, e1, e2, e3⟩ := h.sleep e (by rw [he]; simp)
    have hsl : ∀ x ∈ l1 ++ l2, x ∈ s.sleeping := by
      intro x hx
      rw [he]; rcases List.mem_append.mp hx with hx | hx
      · exact List.mem_append_left _ hx
      · exact List.mem_append_right _ (List.mem_cons_of_mem _ hx)
    unfold WS.expire at hinv ⊢
    cases hn : e.number with
    | none =>
      simp only [hn] at hinv ⊢
      refine ⟨hinv, h.done_closed, fun x hx => h.sleep x (hsl x hx), ?_, ?_⟩
      · intro k hk
        rcases List.mem_cons.mp hk with rfl | hk
        · exact ⟨w, hw, e2, .inl (by rw [e1])⟩
        · exact h.expired k hk
      · intro x hx hne
        exact h.num_same x hx (fun hm => hne (List.mem_cons_of_mem _ hm))
    | some n =>
      simp only [hn] at hinv ⊢
      refine ⟨hinv, h.done_closed, fun x hx => h.sleep x (hsl x hx), ?_, ?_⟩
      · intro k hk
        rcases List.mem_cons.mp hk with rfl | hk
        · exact ⟨w, hw, e2, .inr (by rw [e3 n hn])⟩
        · rcases List.mem_cons.mp hk with rfl | hk
          · exact ⟨w, hw, e2, .inl (by rw [e1])⟩
          · exact h.expired k hk
      · intro x hx hne
        show (s.numbers.erase n).get? x.ann.number = some x.nch
        rw [GMap.get?_erase, if_neg (fun e => hne (by rw [← e]; exact List.mem_cons_self ..))]
        exact h.num_same x hx (fun hm => hne (List.mem_cons_of_mem _ (List.mem_cons_of_mem _ hm)))
  | notFound _ => cases hx; exact h
  | found hl => cases hx; exact ⟨hinv, h.done_closed, h.sleep, h.expired, h.num_same⟩
  | success hc _ => cases hx; exact ⟨hinv, h.done_closed, h.sleep, h.expired, h.num_same⟩
  | timeout hc => cases hx; exact ⟨hinv, h.done_closed, h.sleep, h.expired, h.num_same⟩
  | stop _ => cases hx; exact ⟨hinv, h.done_closed, h.sleep, h.expired, h.num_same⟩

theorem WS.Reach.inv2 (h : WS.Reach s) : s.Inv2 := by
  induction h with
  | init => exact ⟨.init, by simp [WS.init], by simp [WS.init], by simp [WS.init], by simp [WS.init]⟩
  | step _ hs ih => exact ih.step hs

theorem done_of_closed (h : s.Inv) {a : Ann} (ha : a ∈ s.anns) (hc : a.ch ∈ s.closed) : (a.block, a.ch) ∈ s.dones := by
  rcases h.ann_open a ha with ho | ho
  · exact absurd hc (h.wc_open _ _ ho)
  · exact ho.2

/-! ## C55 -/

/-- **C55**: success for a hash means that `Done` was called on a block with that hash which had been announced. -/
theorem C55_hash {h : Hash} {t : WS} (hr : WS.Reach s) (hs : WS.Step s (some (.hash h, .success)) (.ok t)) :
    ∃ a ∈ s.anns, a.hash = h ∧ (s.block a.block).hash = h ∧ (a.block, a.ch) ∈ s.dones := by
  have hi := hr.inv
  generalize hx : (some (WKey.hash h, WaitResult.success)) = r at hs
  generalize hy : (Except.ok t : Except Fault WS) = y at hs
  cases hs <;> try (simp at hx; done)
  case success l1 c l2 hc hcl =>
    simp only [Option.some.injEq, Prod.mk.injEq, and_true] at hx
    obtain ⟨w, hw, e1, e2⟩ := hi.call_hash c (by rw [hc]; simp) h hx.symm
    have ha := hi.taken_ann w hw
    exact ⟨w.ann, ha, e1, by rw [← (hi.ann_block _ ha).1]; exact e1, done_of_closed hi ha (by rw [e2]; exact hcl)⟩

/-- **C55**: success for a number means that `Done` was called on a block with that number which had been announced. -/
theorem C55_number {n : Int} {t : WS} (hr : WS.Reach s) (hs : WS.Step s (some (.number n, .success)) (.ok t)) :
    ∃ a ∈ s.anns, a.number = n ∧ (s.block a.block).number = n ∧ (a.block, a.ch) ∈ s.dones := by
  have hi := hr.inv
  generalize hx : (some (WKey.number n, WaitResult.success)) = r at hs
  generalize hy : (Except.ok t : Except Fault WS) = y at hs
  cases hs <;> try (simp at hx; done)
  case success l1 c l2 hc hcl =>
    simp only [Option.some.injEq, Prod.mk.injEq, and_true] at hx
    obtain ⟨w, hw, e1, e2⟩ := hi.call_num c (by rw [hc]; simp) n hx.symm
    obtain ⟨w', hw', e3, e4, e5⟩ := hi.num_closed n c.ch (.inr ⟨w, hw, e1, e2⟩) hcl
    have ha := hi.taken_ann w' hw'
    exact ⟨w'.ann, ha, e4, by rw [← (hi.ann_block _ ha).2]; exact e4, e5⟩

/-- **C55**: not found means that no announcement for the key has been taken from the buffer, or that the entry has expired, and
then a block of the same number was done. -/
theorem C55_notFound {k : WKey} {t : WS} (hr : WS.Reach s) (hs : WS.Step s (some (k, .notFound)) (.ok t)) :
    (∀ w ∈ s.taken, k ≠ .hash w.ann.hash ∧ k ≠ .number w.ann.number) ∨
    ∃ w ∈ s.taken, (k = .hash w.ann.hash ∨ k = .number w.ann.number) ∧ k ∈ s.expired ∧
      ∃ w' ∈ s.taken, w'.ann.number = w.ann.number ∧ (w'.ann.block, w'.ann.ch) ∈ s.dones := by
  have hi := hr.inv2
  generalize hx : (some (k, WaitResult.notFound)) = r at hs
  generalize hy : (Except.ok t : Except Fault WS) = y at hs
  cases hs <;> try (simp at hx; done)
  case notFound k' hl =>
    simp only [Option.some.injEq, Prod.mk.injEq, and_true] at hx
    subst hx
    by_cases hex : k ∈ s.expired
    · obtain ⟨w, hw, e1, e2⟩ := hi.expired k hex
      obtain ⟨w', hw', e3, e4, e5⟩ := hi.inv.num_closed w.ann.number w.nch (.inr ⟨w, hw, rfl, rfl⟩) e1
      exact .inr ⟨w, hw, e2, hex, w', hw', e4, e5⟩
    · refine .inl (fun w hw => ⟨?_, ?_⟩)
      · rintro rfl
        rcases hi.inv.hash_kept w hw with h1 | h1
        · exact h1 hl
        · exact hex h1
      · rintro rfl
        rcases hi.inv.num_kept w hw with h1 | h1
        · exact h1 hl
        · exact hex h1

/-! ## C56 -/

/-- **C56**: no step closes a closed channel (or faults in another way). -/
theorem C56_closed_once (hr : WS.Reach s) {r : Option (WKey × WaitResult)} {f : Fault} : ¬ WS.Step s r (.error f) := by
  intro hs
  obtain ⟨t, e, _⟩ := hr.inv.step hs
  simp at e

/-! ## C57 -/

/-- **C57**: once `Done` has been called on the block last announced for a hash and the entry has not expired, a call for the hash
finds a closed channel and can end with success at once. -/
theorem C57_hash (hr : WS.Reach s) {h : Hash} {l1 l2 : List Watch} {w : Watch} (ht : s.taken = l1 ++ w :: l2) (hw : w.ann.hash = h)
    (hlast : ∀ x ∈ l2, x.ann.hash ≠ h) (hd : (w.ann.block, w.ann.ch) ∈ s.dones) (hex : .hash h ∉ s.expired) :
    s.lookup (.hash h) = some w.ann.ch ∧ WS.Step { s with calls := s.calls ++ [⟨.hash h, w.ann.ch⟩] } (some (.hash h, .success)) (.ok s) := by
  have hi := hr.inv2
  have hc := hi.done_closed _ _ hd
  have hl : s.lookup (.hash h) = some w.ann.ch := by
    show s.hashes.get? h = _
    rcases hi.inv.hash_kept w (by rw [ht]; simp) with h1 | h1
    · rw [hw] at h1
      obtain ⟨c, hg⟩ := Option.ne_none_iff_exists'.mp h1
      rw [hg]
      obtain ⟨m1, w', m2, e, e1, e2, e3⟩ := hi.inv.hash_taken h c hg
      rw [ht] at e
      rcases List.append_eq_append_iff.mp e with ⟨a', he1, he2⟩ | ⟨a', he1, he2⟩
      · cases a' with
        | nil => simp only [List.nil_append, List.cons.injEq] at he2; rw [← he2.1] at e2; rw [e2]
        | cons x a' =>
          simp only [List.cons_append, List.cons.injEq] at he2
          exact absurd e1 (hlast w' (by rw [he2.2]; simp))
      · cases a' with
        | nil => simp only [List.nil_append, List.cons.injEq] at he2; rw [he2.1] at e2; rw [e2]
        | cons x a' =>
          simp only [List.cons_append, List.cons.injEq] at he2
          exact absurd hw (e3 w (by rw [he2.2]; simp))
    · rw [hw] at h1; exact absurd h1 hex
  refine ⟨hl, ?_⟩
  have := WS.Step.success (s := { s with calls := s.calls ++ [⟨.hash h, w.ann.ch⟩] }) (l1 := s.calls) (c := ⟨.hash h, w.ann.ch⟩) (l2 := []) rfl hc
  simpa using this

/-- **C57**: calling `Done` on a block (alone or with others) wakes every call that waits on its channel. -/
theorem C57_wakes (hr : WS.Reach s) {bs : List Nat} {b : Nat} (hb : b ∈ bs) {c : WaitCall} (hc : c ∈ s.calls)
    (hw : (s.block b).waitCh = some c.ch) : ∃ t, s.doneAll bs = .ok t ∧ ∃ u, WS.Step t (some (c.key, .success)) (.ok u) := by
  obtain ⟨t, h1, h2, h3, h4, h5⟩ := hr.inv.doneAll bs
  obtain ⟨l1, l2, e⟩ := List.append_of_mem (h5 ▸ hc : c ∈ t.calls)
  exact ⟨t, h1, _, .success e (h4 b hb c.ch hw)⟩

/-- **C57**: when the watching goroutines have run, the number channel of every announced block that is done is closed; and if the
number's entry has not expired, a call for the number finds that channel. -/
theorem C57_number (hr : WS.Reach s) (hq : ∀ x ∈ s.watching, x.ann.ch ∉ s.closed) {w : Watch} (hw : w ∈ s.taken)
    (hd : (w.ann.block, w.ann.ch) ∈ s.dones) :
    w.nch ∈ s.closed ∧ (.number w.ann.number ∉ s.expired → s.lookup (.number w.ann.number) = some w.nch) := by
  have hi := hr.inv2
  refine ⟨?_, fun hex => hi.num_same w hw hex⟩
  rcases hi.inv.ran w hw with h1 | h1
  · exact absurd (hi.done_closed _ _ hd) (hq w h1)
  · exact h1

/-! ## C68 -/

/-- **C68**: as long as no block of a height at which the hash was announced is done, the hash is found. -/
theorem C68_partial (hr : WS.Reach s) {w : Watch} (hw : w ∈ s.taken)
    (hd : ∀ x ∈ s.taken, x.ann.hash = w.ann.hash → ∀ y ∈ s.taken, y.ann.number = x.ann.number → (y.ann.block, y.ann.ch) ∉ s.dones) :
    s.lookup (.hash w.ann.hash) ≠ none := by
  have hi := hr.inv
  have hi2 := hr.inv2
  rcases hi.hash_kept w hw with h1 | h1
  · exact h1
  · obtain ⟨x, hx, e1, e2⟩ := hi2.expired _ h1
    obtain ⟨y, hy, e3, e4, e5⟩ := hi.num_closed x.ann.number x.nch (.inr ⟨x, hx, rfl, rfl⟩) e1
    rcases e2 with e2 | e2
    · simp only [WKey.hash.injEq] at e2
      exact absurd e5 (hd x hx e2.symm y hy e4)
    · simp at e2

/-- A block is announced, done, announced again; then the entry of the first announcement expires. -/
theorem exWaiter : ∃ s, WS.Reach s ∧ s.taken = [⟨1, ⟨exHash 1, 5, 0, 0⟩⟩, ⟨1, ⟨exHash 1, 5, 2, 1⟩⟩] ∧ (s.block 1).waitCh = some 2 ∧
    s.lookup (.hash (exHash 1)) = none ∧ s.dones = [(0, 0)] := by
  have h0 := WS.Reach.init.step (.newBlock (h := exHash 1) (n := 5))
  have h1 := h0.step (.take (a := ⟨exHash 1, 5, 0, 0⟩) (q := []) rfl)
  have h2 := h1.step (.doneAll (bs := [0]) (by decide))
  have h3 := h2.step (.hashFired (l1 := []) (w := ⟨1, ⟨exHash 1, 5, 0, 0⟩⟩) (l2 := []) rfl (by decide))
  have h4 := h3.step (.newBlock (h := exHash 1) (n := 5))
  have h5 := h4.step (.take (a := ⟨exHash 1, 5, 2, 1⟩) (q := []) rfl)
  have h6 := h5.step (.expire (l1 := []) (e := ⟨some 5, exHash 1⟩) (l2 := []) rfl)
  exact ⟨_, h6, rfl, rfl, by decide +kernel, rfl⟩

/-- **C68** refuted: the entry of a block that is announced and not yet done can disappear. -/
theorem C68_refuted : ¬ ∀ s, WS.Reach s → ∀ w ∈ s.taken, (s.block w.ann.block).waitCh = some w.ann.ch → s.lookup (.hash w.ann.hash) ≠ none := by
  intro h
  obtain ⟨s, hr, ht, hb, hl, _⟩ := exWaiter
  exact h s hr ⟨1, ⟨exHash 1, 5, 2, 1⟩⟩ (by rw [ht]; simp) hb hl

/-- C55 to C57: a block is announced, looked up, done, and both kinds of call succeed. -/
example : ∃ s t, WS.Reach s ∧ WS.Step s (some (.hash (exHash 1), .success)) (.ok t) ∧
    ∃ u v, WS.Reach u ∧ WS.Step u (some (.number 5, .success)) (.ok v) := by
  have h0 := WS.Reach.init.step (.newBlock (h := exHash 1) (n := 5))
  have h1 := h0.step (.take (a := ⟨exHash 1, 5, 0, 0⟩) (q := []) rfl)
  have h2 := h1.step (.found (k := .hash (exHash 1)) (c := 0) (by decide +kernel))
  have h3 := h2.step (.found (k := .number 5) (c := 1) (by decide +kernel))
  have h4 := h3.step (.doneAll (bs := [0, 0]) (by decide))
  have s1 := WS.Step.success (l1 := []) (c := ⟨.hash (exHash 1), 0⟩) (l2 := [⟨.number 5, 1⟩]) (s := _) rfl (by decide) |> h4.step
  refine ⟨_, _, h4, .success (l1 := []) (c := ⟨.hash (exHash 1), 0⟩) (l2 := [⟨.number 5, 1⟩]) rfl (by decide), ?_⟩
  have h5 := s1.step (.hashFired (l1 := []) (w := ⟨1, ⟨exHash 1, 5, 0, 0⟩⟩) (l2 := []) rfl (by decide))
  exact ⟨_, _, h5, .success (l1 := []) (c := ⟨.number 5, 1⟩) (l2 := []) rfl (by decide)⟩

/-- C57: the hypotheses of `C57_hash` and `C57_number` after that. -/
example : ∃ s, WS.Reach s ∧ s.taken = [⟨1, ⟨exHash 1, 5, 0, 0⟩⟩] ∧ (0, 0) ∈ s.dones ∧ s.expired = [] ∧ s.watching = [] := by
  have h0 := WS.Reach.init.step (.newBlock (h := exHash 1) (n := 5))
  have h1 := h0.step (.take (a := ⟨exHash 1, 5, 0, 0⟩) (q := []) rfl)
  have h2 := h1.step (.doneAll (bs := [0]) (by decide))
  have h3 := h2.step (.hashFired (l1 := []) (w := ⟨1, ⟨exHash 1, 5, 0, 0⟩⟩) (l2 := []) rfl (by decide))
  exact ⟨_, h3, rfl, by decide, rfl, rfl⟩

/-- C55: nothing announced. -/
example : WS.Step .init (some (.number 5, .notFound)) (.ok .init) := .notFound rfl

end Verif
