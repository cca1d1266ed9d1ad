import Verif.Model.Waiter
import Verif.Proofs.GMap
/-! Invariants of the waiter. -/
namespace Verif

/-- `c` serves as channel of number `n`. -/
def WS.IsNum (s : WS) (n : Int) (c : Nat) : Prop :=
  s.numbers.get? n = some c ∨ (∃ w ∈ s.taken, w.nch = c ∧ w.ann.number = n)

/-- A channel whose block has been done, or is still to be. -/
def WS.Open (s : WS) (a : Ann) : Prop := (s.block a.block).waitCh = some a.ch ∨ (a.ch ∈ s.closed ∧ (a.block, a.ch) ∈ s.dones)

structure WS.Inv (s : WS) : Prop where
  closed_lt : ∀ c ∈ s.closed, c < s.next
  none_later : ∀ b, s.nextBlock ≤ b → (s.block b).waitCh = none
  wc_open : ∀ b c, (s.block b).waitCh = some c → c ∉ s.closed
  wc_inj : ∀ b b' c, (s.block b).waitCh = some c → (s.block b').waitCh = some c → b = b'
  wc_ann : ∀ b c, (s.block b).waitCh = some c → ∃ a ∈ s.anns, a.block = b ∧ a.ch = c
  ann_lt : ∀ a ∈ s.anns, a.ch < s.next ∧ a.block < s.nextBlock
  ann_block : ∀ a ∈ s.anns, a.hash = (s.block a.block).hash ∧ a.number = (s.block a.block).number
  ann_open : ∀ a ∈ s.anns, s.Open a
  queue_ann : ∀ a ∈ s.queue, a ∈ s.anns
  taken_ann : ∀ w ∈ s.taken, w.ann ∈ s.anns
  watching_taken : ∀ w ∈ s.watching, w ∈ s.taken
  num_lt : ∀ n c, s.IsNum n c → c < s.next
  num_inj : ∀ n n' c, s.IsNum n c → s.IsNum n' c → n = n'
  num_ann : ∀ n c, s.IsNum n c → ∀ a ∈ s.anns, a.ch ≠ c
  num_taken : ∀ n c, s.numbers.get? n = some c → ∃ w ∈ s.taken, w.nch = c ∧ w.ann.number = n
  num_closed : ∀ n c, s.IsNum n c → c ∈ s.closed → ∃ w ∈ s.taken, w.nch = c ∧ w.ann.number = n ∧ (w.ann.block, w.ann.ch) ∈ s.dones
  hash_taken : ∀ h c, s.hashes.get? h = some c → ∃ l1 w l2, s.taken = l1 ++ w :: l2 ∧ w.ann.hash = h ∧ w.ann.ch = c ∧ ∀ x ∈ l2, x.ann.hash ≠ h
  hash_kept : ∀ w ∈ s.taken, s.hashes.get? w.ann.hash ≠ none ∨ .hash w.ann.hash ∈ s.expired
  num_kept : ∀ w ∈ s.taken, s.numbers.get? w.ann.number ≠ none ∨ .number w.ann.number ∈ s.expired
  ran : ∀ w ∈ s.taken, w ∈ s.watching ∨ w.nch ∈ s.closed
  call_hash : ∀ x ∈ s.calls, ∀ h, x.key = .hash h → ∃ w ∈ s.taken, w.ann.hash = h ∧ w.ann.ch = x.ch
  call_num : ∀ x ∈ s.calls, ∀ n, x.key = .number n → ∃ w ∈ s.taken, w.nch = x.ch ∧ w.ann.number = n

theorem WS.Inv.init : WS.Inv .init := by
  have hn : ∀ n c, ¬ WS.IsNum .init n c := by
    intro n c h
    rcases h with h | ⟨w, hw, _⟩
    · simp [WS.init] at h
    · simp [WS.init] at hw
  constructor <;> try simp [WS.init]
  · intro n c h; exact absurd h (hn _ _)
  · intro n n' c h; exact absurd h (hn _ _)

variable {s : WS}

/-- Changes of the queue and the announcements only. -/
theorem WS.Inv.send (h : s.Inv) {a : Ann} (hl : a.ch < s.next) (hw : (s.block a.block).waitCh = some a.ch)
    (hb : a.hash = (s.block a.block).hash ∧ a.number = (s.block a.block).number) (hbl : a.block < s.nextBlock)
    (hnew : ∀ n, ¬ s.IsNum n a.ch) : (s.send a).Inv where
  closed_lt := h.closed_lt
  none_later := h.none_later
  wc_open := h.wc_open
  wc_inj := h.wc_inj
  wc_ann := fun b c hc => by
    obtain ⟨x, hx, e⟩ := h.wc_ann b c hc
    exact ⟨x, List.mem_append_left _ hx, e⟩
  ann_lt := fun x hx => by
    rcases List.mem_append.mp hx with hx | hx
    · exact h.ann_lt x hx
    · rw [List.mem_singleton.mp hx]; exact ⟨hl, hbl⟩
  ann_block := fun x hx => by
    rcases List.mem_append.mp hx with hx | hx
    · exact h.ann_block x hx
    · rw [List.mem_singleton.mp hx]; exact hb
  ann_open := fun x hx => by
    rcases List.mem_append.mp hx with hx | hx
    · exact h.ann_open x hx
    · rw [List.mem_singleton.mp hx]; exact .inl hw
  queue_ann := fun x hx => by
    unfold WS.send at hx ⊢
    simp only [List.mem_append, List.mem_singleton]
    split at hx
    · exact .inl (h.queue_ann x hx)
    · rcases List.mem_append.mp hx with hx | hx
      · exact .inl (h.queue_ann x hx)
      · exact .inr (List.mem_singleton.mp hx)
  taken_ann := fun w hw => List.mem_append_left _ (h.taken_ann w hw)
  watching_taken := h.watching_taken
  num_lt := h.num_lt
  num_inj := h.num_inj
  num_ann := fun n c hn x hx => by
    rcases List.mem_append.mp hx with hx | hx
    · exact h.num_ann n c hn x hx
    · rw [List.mem_singleton.mp hx]; rintro rfl; exact hnew n hn
  num_taken := h.num_taken
  num_closed := h.num_closed
  hash_taken := h.hash_taken
  hash_kept := h.hash_kept
  num_kept := h.num_kept
  ran := h.ran
  call_hash := h.call_hash
  call_num := h.call_num

/-- A block gets a new channel. -/
theorem WS.Inv.freshChannel (h : s.Inv) {b : Nat} {x : WBlock} {nb : Nat} (hx : x.waitCh = some s.next) (hnb : s.nextBlock ≤ nb) (hb : b < nb)
    (hold : (s.block b).waitCh = none) (hsame : b < s.nextBlock → x.hash = (s.block b).hash ∧ x.number = (s.block b).number) :
    (({ (s.setBlock b x) with next := s.next + 1, nextBlock := nb } : WS).send ⟨x.hash, x.number, s.next, b⟩).Inv where
  closed_lt := fun c hc => by have := h.closed_lt c hc; show c < s.next + 1; omega
  none_later := fun j hj => by
    have hj' : nb ≤ j := hj
    have : ¬ j = b := by omega
    show (if j = b then x else s.block j).waitCh = none
    rw [if_neg this]; exact h.none_later j (by omega)
  wc_open := fun j c hc => by
    change (if j = b then x else s.block j).waitCh = some c at hc
    show c ∉ s.closed
    split at hc
    · rw [hx] at hc; cases hc; intro hm; have := h.closed_lt _ hm; omega
    · exact h.wc_open j c hc
  wc_inj := fun j j' c hc hc' => by
    change (if j = b then x else s.block j).waitCh = some c at hc
    change (if j' = b then x else s.block j').waitCh = some c at hc'
    have key : ∀ j, (s.block j).waitCh = some c → c < s.next := by
      intro j hj
      obtain ⟨a, ha, _, e⟩ := h.wc_ann j c hj
      rw [← e]; exact (h.ann_lt a ha).1
    split at hc <;> split at hc'
    · rename_i e e'; rw [e, e']
    · rw [hx] at hc; cases hc; have := key _ hc'; omega
    · rw [hx] at hc'; cases hc'; have := key _ hc; omega
    · exact h.wc_inj j j' c hc hc'
  wc_ann := fun j c hc => by
    change (if j = b then x else s.block j).waitCh = some c at hc
    show ∃ a ∈ s.anns ++ [⟨x.hash, x.number, s.next, b⟩], _
    split at hc
    · rename_i e
      rw [hx] at hc; cases hc
      exact ⟨_, List.mem_append_right _ (List.mem_singleton.mpr rfl), e.symm, rfl⟩
    · obtain ⟨a, ha, e⟩ := h.wc_ann j c hc
      exact ⟨a, List.mem_append_left _ ha, e⟩
  ann_lt := fun a ha => by
    show a.ch < s.next + 1 ∧ a.block < nb
    rcases List.mem_append.mp ha with ha | ha
    · have := h.ann_lt a ha; omega
    · rw [List.mem_singleton.mp ha]; exact ⟨Nat.lt_succ_self _, hb⟩
  ann_block := fun a ha => by
    show a.hash = (if a.block = b then x else s.block a.block).hash ∧ a.number = (if a.block = b then x else s.block a.block).number
    rcases List.mem_append.mp ha with ha | ha
    · have h1 := h.ann_block a ha
      split
      · rename_i e
        have h2 := hsame (by rw [← e]; exact (h.ann_lt a ha).2)
        rw [h2.1, h2.2, ← e]; exact h1
      · exact h1
    · rw [List.mem_singleton.mp ha]; simp
  ann_open := fun a ha => by
    show (if a.block = b then x else s.block a.block).waitCh = some a.ch ∨ (a.ch ∈ s.closed ∧ (a.block, a.ch) ∈ s.dones)
    rcases List.mem_append.mp ha with ha | ha
    · rcases h.ann_open a ha with h1 | h1
      · split
        · rename_i e; rw [e, hold] at h1; simp at h1
        · exact .inl h1
      · exact .inr h1
    · rw [List.mem_singleton.mp ha]; simp [hx]
  queue_ann := fun a ha => by
    change a ∈ (if s.stopped then s.queue else s.queue ++ [⟨x.hash, x.number, s.next, b⟩]) at ha
    show a ∈ s.anns ++ [⟨x.hash, x.number, s.next, b⟩]
    split at ha
    · exact List.mem_append_left _ (h.queue_ann a ha)
    · rcases List.mem_append.mp ha with ha | ha
      · exact List.mem_append_left _ (h.queue_ann a ha)
      · exact List.mem_append_right _ ha
  taken_ann := fun w hw => List.mem_append_left _ (h.taken_ann w hw)
  watching_taken := h.watching_taken
  num_lt := fun n c hn => by have := h.num_lt n c hn; show c < s.next + 1; omega
  num_inj := h.num_inj
  num_ann := fun n c hn a ha => by
    rcases List.mem_append.mp ha with ha | ha
    · exact h.num_ann n c hn a ha
    · rw [List.mem_singleton.mp ha]; have := h.num_lt n c hn; show s.next ≠ c; omega
  num_taken := h.num_taken
  num_closed := h.num_closed
  hash_taken := h.hash_taken
  hash_kept := h.hash_kept
  num_kept := h.num_kept
  ran := h.ran
  call_hash := h.call_hash
  call_num := h.call_num

theorem WS.Inv.newBlock (h : s.Inv) (hash : Hash) (n : Int) : (s.newBlock hash n).Inv :=
  h.freshChannel (b := s.nextBlock) (x := ⟨hash, n, some s.next⟩) rfl (Nat.le_succ _) (Nat.lt_succ_self _) (h.none_later _ (Nat.le_refl _))
    (fun hlt => absurd hlt (Nat.lt_irrefl _))

theorem WS.Inv.complete (h : s.Inv) {b : Nat} (hb : b < s.nextBlock) : (s.complete b).Inv := by
  unfold WS.complete
  split
  · rename_i c hc
    obtain ⟨a, ha, e1, e2⟩ := h.wc_ann b c hc
    exact h.send (by rw [← e2]; exact (h.ann_lt a ha).1) hc ⟨rfl, rfl⟩ hb (fun n hn => h.num_ann n c hn a ha e2)
  · rename_i hc
    exact h.freshChannel (b := b) (x := { s.block b with waitCh := some s.next }) rfl (Nat.le_refl _) hb hc (fun _ => ⟨rfl, rfl⟩)

theorem WS.Inv.foreign (h : s.Inv) (hash : Hash) (n : Int) : (s.foreign hash n).Inv where
  closed_lt := h.closed_lt
  none_later := fun j hj => by
    have hj' : s.nextBlock + 1 ≤ j := hj
    show (if j = s.nextBlock then _ else s.block j).waitCh = none
    rw [if_neg (by omega)]; exact h.none_later j (by omega)
  wc_open := fun j c hc => by
    change (if j = s.nextBlock then (⟨hash, n, none⟩ : WBlock) else s.block j).waitCh = some c at hc
    split at hc
    · simp at hc
    · exact h.wc_open j c hc
  wc_inj := fun j j' c hc hc' => by
    change (if j = s.nextBlock then (⟨hash, n, none⟩ : WBlock) else s.block j).waitCh = some c at hc
    change (if j' = s.nextBlock then (⟨hash, n, none⟩ : WBlock) else s.block j').waitCh = some c at hc'
    split at hc
    · simp at hc
    · split at hc'
      · simp at hc'
      · exact h.wc_inj j j' c hc hc'
  wc_ann := fun j c hc => by
    change (if j = s.nextBlock then (⟨hash, n, none⟩ : WBlock) else s.block j).waitCh = some c at hc
    split at hc
    · simp at hc
    · exact h.wc_ann j c hc
  ann_lt := fun a ha => ⟨(h.ann_lt a ha).1, Nat.lt_succ_of_lt (h.ann_lt a ha).2⟩
  ann_block := fun a ha => by
    have hne : ¬ a.block = s.nextBlock := Nat.ne_of_lt (h.ann_lt a ha).2
    show a.hash = (if a.block = s.nextBlock then _ else s.block a.block).hash ∧ a.number = (if a.block = s.nextBlock then _ else s.block a.block).number
    rw [if_neg hne]; exact h.ann_block a ha
  ann_open := fun a ha => by
    have hne : ¬ a.block = s.nextBlock := Nat.ne_of_lt (h.ann_lt a ha).2
    show (if a.block = s.nextBlock then _ else s.block a.block).waitCh = some a.ch ∨ (a.ch ∈ s.closed ∧ (a.block, a.ch) ∈ s.dones)
    rw [if_neg hne]; exact h.ann_open a ha
  queue_ann := h.queue_ann
  taken_ann := h.taken_ann
  watching_taken := h.watching_taken
  num_lt := h.num_lt
  num_inj := h.num_inj
  num_ann := h.num_ann
  num_taken := h.num_taken
  num_closed := h.num_closed
  hash_taken := h.hash_taken
  hash_kept := h.hash_kept
  num_kept := h.num_kept
  ran := h.ran
  call_hash := h.call_hash
  call_num := h.call_num

/-- `Done` never closes a closed channel. -/
theorem WS.Inv.done (h : s.Inv) (b : Nat) : ∃ t, s.done b = .ok t ∧ t.Inv ∧ t.nextBlock = s.nextBlock ∧ (∀ c ∈ s.closed, c ∈ t.closed) ∧
    (∀ c, (s.block b).waitCh = some c → c ∈ t.closed) ∧ t.calls = s.calls ∧
    (∀ j c, (s.block j).waitCh = some c → j ≠ b → (t.block j).waitCh = some c) := by
  unfold WS.done
  cases hc : (s.block b).waitCh with
  | none =>
    refine ⟨s, rfl, h, rfl, fun _ hx => hx, by simp, rfl, fun _ _ hx _ => hx⟩
  | some c =>
    have hopen := h.wc_open b c hc
    obtain ⟨a0, ha0, e1, e2⟩ := h.wc_ann b c hc
    refine ⟨{ s.setBlock b { s.block b with waitCh := none } with dones := (b, c) :: s.dones, closed := c :: s.closed }, ?_, ?_, rfl,
      fun _ hx => List.mem_cons_of_mem _ hx, ?_, rfl, ?_⟩
    · simp only [WS.close]; rw [if_neg (by exact hopen)]; rfl
    · constructor
      · intro x hx
        rcases List.mem_cons.mp hx with rfl | hx
        · rw [← e2]; exact (h.ann_lt a0 ha0).1
        · exact h.closed_lt x hx
      · intro j hj
        show (if j = b then _ else s.block j).waitCh = none
        split
        · rfl
        · exact h.none_later j hj
      · intro j x hx
        change (if j = b then _ else s.block j).waitCh = some x at hx
        split at hx
        · simp at hx
        · next hj =>
          rw [List.mem_cons, not_or]
          exact ⟨fun e => hj (h.wc_inj j b c (e ▸ hx) hc), h.wc_open j x hx⟩
      · intro j j' x hx hx'
        change (if j = b then _ else s.block j).waitCh = some x at hx
        change (if j' = b then _ else s.block j').waitCh = some x at hx'
        split at hx
        · simp at hx
        · split at hx'
          · simp at hx'
          · exact h.wc_inj j j' x hx hx'
      · intro j x hx
        change (if j = b then _ else s.block j).waitCh = some x at hx
        split at hx
        · simp at hx
        · exact h.wc_ann j x hx
      · exact h.ann_lt
      · intro a ha
        show a.hash = (if a.block = b then _ else s.block a.block).hash ∧ a.number = (if a.block = b then _ else s.block a.block).number
        have := h.ann_block a ha
        split
        · next e => rw [e] at this; exact this
        · exact this
      · intro a ha
        show (if a.block = b then _ else s.block a.block).waitCh = some a.ch ∨ (a.ch ∈ c :: s.closed ∧ (a.block, a.ch) ∈ (b, c) :: s.dones)
        rcases h.ann_open a ha with h1 | h1
        · by_cases e : a.block = b
          · rw [e, hc] at h1
            simp only [Option.some.injEq] at h1
            exact .inr ⟨by simp [h1], by simp [e, h1]⟩
          · rw [if_neg e]; exact .inl h1
        · exact .inr ⟨List.mem_cons_of_mem _ h1.1, List.mem_cons_of_mem _ h1.2⟩
      · exact h.queue_ann
      · exact h.taken_ann
      · exact h.watching_taken
      · exact h.num_lt
      · exact h.num_inj
      · exact h.num_ann
      · exact h.num_taken
      · intro n x hn hx
        rcases List.mem_cons.mp hx with rfl | hx
        · exact absurd e2 (h.num_ann n _ hn a0 ha0)
        · obtain ⟨w, hw, e1, e2, e3⟩ := h.num_closed n x hn hx
          exact ⟨w, hw, e1, e2, List.mem_cons_of_mem _ e3⟩
      · exact h.hash_taken
      · exact h.hash_kept
      · exact h.num_kept
      · intro w hw
        exact (h.ran w hw).imp id (List.mem_cons_of_mem _)
      · exact h.call_hash
      · exact h.call_num
    · rintro x ⟨⟩; exact List.mem_cons_self ..
    · intro j x hx hj
      show (if j = b then _ else s.block j).waitCh = some x
      rw [if_neg hj]; exact hx

theorem WS.Inv.doneAll (h : s.Inv) (bs : List Nat) : ∃ t, s.doneAll bs = .ok t ∧ t.Inv ∧ (∀ c ∈ s.closed, c ∈ t.closed) ∧
    (∀ b ∈ bs, ∀ c, (s.block b).waitCh = some c → c ∈ t.closed) ∧ t.calls = s.calls := by
  induction bs generalizing s with
  | nil => exact ⟨s, rfl, h, fun _ hx => hx, by simp, rfl⟩
  | cons b bs ih =>
    obtain ⟨t, h1, h2, h3, h4, h5, h6, h6'⟩ := h.done b
    obtain ⟨u, h7, h8, h9, h10, h11⟩ := ih h2
    refine ⟨u, ?_, h8, fun c hc => h9 c (h4 c hc), ?_, h11.trans h6⟩
    · unfold WS.doneAll; rw [h1]; exact h7
    · intro j hj c hc
      by_cases e : j = b
      · subst e; exact h9 c (h5 c hc)
      · exact h10 j (by simpa [e] using hj) c (h6' j c hc e)

theorem WS.Inv.take (h : s.Inv) {a : Ann} {q : List Ann} (hq : s.queue = a :: q) : (s.take a q).Inv := by
  have ha : a ∈ s.anns := h.queue_ann a (by simp [hq])
  have hqa : ∀ x ∈ q, x ∈ s.anns := fun x hx => h.queue_ann x (by simp [hq, hx])
  have hrest : ∀ (nch nx : Nat) (nums : GMap Int Nat),
      s.next ≤ nx → nums.get? a.number = some nch → (∀ m, m ≠ a.number → nums.get? m = s.numbers.get? m) →
      (s.numbers.get? a.number = some nch ∨ (nch = s.next ∧ nch < nx ∧ s.numbers.get? a.number = none)) →
      WS.Inv { s with queue := q, hashes := s.hashes.insert a.hash a.ch, numbers := nums, next := nx, watching := s.watching ++ [⟨nch, a⟩], taken := s.taken ++ [⟨nch, a⟩] } := by
    intro nch nx nums hnx hnew hother hcase
    have hnum : ∀ n c, WS.IsNum { s with queue := q, hashes := s.hashes.insert a.hash a.ch, numbers := nums, next := nx, watching := s.watching ++ [⟨nch, a⟩], taken := s.taken ++ [⟨nch, a⟩] } n c ↔ s.IsNum n c ∨ (n = a.number ∧ c = nch) := by
      intro n c
      constructor
      · rintro (hg | ⟨w, hw, e1, e2⟩)
        · change nums.get? n = some c at hg
          by_cases e : n = a.number
          · subst e; rw [hnew] at hg; exact .inr ⟨rfl, (Option.some.inj hg).symm⟩
          · rw [hother n e] at hg; exact .inl (.inl hg)
        · change w ∈ s.taken ++ [⟨nch, a⟩] at hw
          rcases List.mem_append.mp hw with hw | hw
          · exact .inl (.inr ⟨w, hw, e1, e2⟩)
          · rw [List.mem_singleton.mp hw] at e1 e2; exact .inr ⟨e2.symm, e1.symm⟩
      · rintro ((hg | ⟨w, hw, e1, e2⟩) | ⟨rfl, rfl⟩)
        · by_cases e : n = a.number
          · subst e
            rcases hcase with hc | ⟨_, _, hc⟩
            · rw [hc] at hg; cases hg; exact .inl hnew
            · rw [hc] at hg; simp at hg
          · exact .inl (by show nums.get? n = some c; rw [hother n e]; exact hg)
        · exact .inr ⟨w, List.mem_append_left _ hw, e1, e2⟩
        · exact .inl hnew
    have hnch_old : s.IsNum a.number nch ∨ nch = s.next := by
      rcases hcase with hc | hc
      · exact .inl (.inl hc)
      · exact .inr hc.1
    constructor
    · intro c hc; have := h.closed_lt c hc; show c < nx; omega
    · exact h.none_later
    · exact h.wc_open
    · exact h.wc_inj
    · exact h.wc_ann
    · intro x hx; have := h.ann_lt x hx; exact ⟨by show x.ch < nx; omega, this.2⟩
    · exact h.ann_block
    · exact h.ann_open
    · exact hqa
    · intro w hw
      rcases List.mem_append.mp hw with hw | hw
      · exact h.taken_ann w hw
      · rw [List.mem_singleton.mp hw]; exact ha
    · intro w hw
      rcases List.mem_append.mp hw with hw | hw
      · exact List.mem_append_left _ (h.watching_taken w hw)
      · exact List.mem_append_right _ hw
    · intro n c hn
      show c < nx
      rcases (hnum n c).mp hn with hn | ⟨rfl, rfl⟩
      · have := h.num_lt n c hn; omega
      · rcases hcase with hc | hc
        · have := h.num_lt _ _ (.inl hc); omega
        · exact hc.2.1
    · intro n n' c hn hn'
      rcases (hnum n c).mp hn with hk | ⟨e, e'⟩ <;> rcases (hnum n' c).mp hn' with hk' | ⟨d, d'⟩
      · exact h.num_inj n n' c hk hk'
      · subst d d'
        rcases hnch_old with ho | ho
        · exact h.num_inj _ _ _ hk ho
        · have := h.num_lt _ _ hk; omega
      · subst e e'
        rcases hnch_old with ho | ho
        · exact h.num_inj _ _ _ ho hk'
        · have := h.num_lt _ _ hk'; omega
      · rw [e, d]
    · intro n c hn x hx
      rcases (hnum n c).mp hn with hn | ⟨rfl, rfl⟩
      · exact h.num_ann n c hn x hx
      · rcases hnch_old with ho | ho
        · exact h.num_ann _ _ ho x hx
        · have := (h.ann_lt x hx).1; omega
    · intro n c hg
      show ∃ w ∈ s.taken ++ [⟨nch, a⟩], _
      change nums.get? n = some c at hg
      by_cases e : n = a.number
      · subst e; rw [hnew] at hg; cases hg
        exact ⟨_, List.mem_append_right _ (List.mem_singleton.mpr rfl), rfl, rfl⟩
      · rw [hother n e] at hg
        obtain ⟨w, hw, hx⟩ := h.num_taken n c hg
        exact ⟨w, List.mem_append_left _ hw, hx⟩
    · intro n c hn hc
      change c ∈ s.closed at hc
      have : s.IsNum n c := by
        rcases (hnum n c).mp hn with hn | ⟨rfl, rfl⟩
        · exact hn
        · rcases hnch_old with ho | ho
          · exact ho
          · have := h.closed_lt _ hc; omega
      obtain ⟨w, hw, hx⟩ := h.num_closed n c this hc
      exact ⟨w, List.mem_append_left _ hw, hx⟩
    · intro x c hg
      change (s.hashes.insert a.hash a.ch).get? x = some c at hg
      show ∃ l1 w l2, s.taken ++ [⟨nch, a⟩] = _ ∧ _
      rw [GMap.get?_insert] at hg
      split at hg
      · next e =>
        cases hg
        exact ⟨s.taken, ⟨nch, a⟩, [], rfl, e, rfl, by simp⟩
      · next e =>
        obtain ⟨l1, w, l2, e1, e2, e3, e4⟩ := h.hash_taken x c hg
        refine ⟨l1, w, l2 ++ [⟨nch, a⟩], by rw [e1]; simp, e2, e3, ?_⟩
        intro y hy
        rcases List.mem_append.mp hy with hy | hy
        · exact e4 y hy
        · rw [List.mem_singleton.mp hy]; exact e
    · intro w hw
      show (s.hashes.insert a.hash a.ch).get? w.ann.hash ≠ none ∨ _
      rw [GMap.get?_insert]
      rcases List.mem_append.mp hw with hw | hw
      · split
        · simp
        · exact h.hash_kept w hw
      · rw [List.mem_singleton.mp hw]; simp
    · intro w hw
      show nums.get? w.ann.number ≠ none ∨ _
      by_cases e : w.ann.number = a.number
      · rw [e, hnew]; simp
      · rw [hother _ e]
        rcases List.mem_append.mp hw with hw | hw
        · exact h.num_kept w hw
        · rw [List.mem_singleton.mp hw] at e; exact absurd rfl e
    · intro w hw
      rcases List.mem_append.mp hw with hw | hw
      · rcases h.ran w hw with hx | hx
        · exact .inl (List.mem_append_left _ hx)
        · exact .inr hx
      · exact .inl (List.mem_append_right _ hw)
    · intro x hx k hk
      obtain ⟨w, hw, e⟩ := h.call_hash x hx k hk
      exact ⟨w, List.mem_append_left _ hw, e⟩
    · intro x hx k hk
      obtain ⟨w, hw, e⟩ := h.call_num x hx k hk
      exact ⟨w, List.mem_append_left _ hw, e⟩
  unfold WS.take
  cases hg : s.numbers.get? a.number with
  | some nch =>
    simp only [hg]
    exact hrest nch s.next s.numbers (Nat.le_refl _) hg (fun _ _ => rfl) (.inl hg)
  | none =>
    simp only [hg]
    exact hrest s.next (s.next + 1) (s.numbers.insert a.number s.next) (Nat.le_succ _) (by rw [GMap.get?_insert]; simp)
      (fun m hm => by rw [GMap.get?_insert, if_neg (fun e => hm e.symm)]) (.inr ⟨rfl, Nat.lt_succ_self _, hg⟩)

/-- The invariant when only `watching` shrinks by goroutines whose number channel is closed, and the sleepers change. -/
theorem WS.Inv.unwatch (h : s.Inv) {l1 l2 : List Watch} {w : Watch} (hw : s.watching = l1 ++ w :: l2) (hc : w.nch ∈ s.closed)
    (sl : List Sleeper) : WS.Inv { s with watching := l1 ++ l2, sleeping := sl } :=
  { h with
    watching_taken := fun x hx => h.watching_taken x (by
      rw [hw]; rcases List.mem_append.mp hx with hx | hx
      · exact List.mem_append_left _ hx
      · exact List.mem_append_right _ (List.mem_cons_of_mem _ hx))
    ran := fun x hx => by
      rcases h.ran x hx with hx | hx
      · rw [hw] at hx
        rcases List.mem_append.mp hx with hx | hx
        · exact .inl (List.mem_append_left _ hx)
        · rcases List.mem_cons.mp hx with rfl | hx
          · exact .inr hc
          · exact .inl (List.mem_append_right _ hx)
      · exact .inr hx
    num_lt := h.num_lt
    num_inj := h.num_inj
    num_ann := h.num_ann
    num_closed := h.num_closed
    ann_open := h.ann_open }

/-- Closing the number channel of a done announcement. -/
theorem WS.Inv.closeNum (h : s.Inv) {w : Watch} (hw : w ∈ s.taken) (hd : (w.ann.block, w.ann.ch) ∈ s.dones) :
    WS.Inv { s with closed := w.nch :: s.closed } :=
  { h with
    closed_lt := fun c hc => by
      rcases List.mem_cons.mp hc with rfl | hc
      · exact h.num_lt w.ann.number _ (.inr ⟨w, hw, rfl, rfl⟩)
      · exact h.closed_lt c hc
    wc_open := fun b c hc => by
      rw [List.mem_cons, not_or]
      refine ⟨?_, h.wc_open b c hc⟩
      rintro rfl
      obtain ⟨a, ha, _, e⟩ := h.wc_ann b _ hc
      exact h.num_ann w.ann.number _ (.inr ⟨w, hw, rfl, rfl⟩) a ha e
    ann_open := fun a ha => (h.ann_open a ha).imp id (fun hx => ⟨List.mem_cons_of_mem _ hx.1, hx.2⟩)
    num_lt := h.num_lt
    num_inj := h.num_inj
    num_ann := h.num_ann
    num_closed := fun n c hn hc => by
      rcases List.mem_cons.mp hc with rfl | hc
      · have := h.num_inj n w.ann.number _ hn (.inr ⟨w, hw, rfl, rfl⟩)
        exact ⟨w, hw, rfl, this.symm, hd⟩
      · exact h.num_closed n c hn hc
    ran := fun x hx => (h.ran x hx).imp id (List.mem_cons_of_mem _) }

theorem WS.Inv.hashFired (h : s.Inv) {l1 l2 : List Watch} {w : Watch} (hw : s.watching = l1 ++ w :: l2) (hc : w.ann.ch ∈ s.closed) :
    ∃ t, ({ s with watching := l1 ++ l2 } : WS).hashFired w = .ok t ∧ t.Inv := by
  have hwt : w ∈ s.taken := h.watching_taken w (by rw [hw]; simp)
  have ha := h.taken_ann w hwt
  have hd : (w.ann.block, w.ann.ch) ∈ s.dones := by
    rcases h.ann_open _ ha with ho | ho
    · exact absurd hc (h.wc_open _ _ ho)
    · exact ho.2
  unfold WS.hashFired
  by_cases hn : w.nch ∈ s.closed
  · simp only [hn, if_true]
    exact ⟨_, rfl, h.unwatch hw hn _⟩
  · simp only [hn, if_false, WS.close]
    exact ⟨_, rfl, (h.closeNum hwt hd).unwatch (s := { s with closed := w.nch :: s.closed }) hw (List.mem_cons_self ..) _⟩

theorem WS.Inv.expire (h : s.Inv) (e : Sleeper) : (s.expire e).Inv := by
  have hhash : ∀ x c, (s.hashes.erase e.hash).get? x = some c → s.hashes.get? x = some c := by
    intro x c hg
    rw [GMap.get?_erase] at hg
    split at hg
    · simp at hg
    · exact hg
  have hkept : ∀ w ∈ s.taken, ∀ ex : List WKey, (∀ k ∈ s.expired, k ∈ ex) → .hash e.hash ∈ ex →
      (s.hashes.erase e.hash).get? w.ann.hash ≠ none ∨ .hash w.ann.hash ∈ ex := by
    intro w hw ex h1 h2
    by_cases he : w.ann.hash = e.hash
    · rw [he]; exact .inr h2
    · rw [GMap.get?_erase, if_neg (fun e => he e.symm)]
      exact (h.hash_kept w hw).imp id (h1 _)
  unfold WS.expire
  cases hn : e.number with
  | none =>
    exact { h with
      hash_taken := fun x c hg => h.hash_taken x c (hhash x c hg)
      hash_kept := fun w hw => hkept w hw _ (fun _ hk => List.mem_cons_of_mem _ hk) (List.mem_cons_self ..)
      num_kept := fun w hw => (h.num_kept w hw).imp id (List.mem_cons_of_mem _)
      num_lt := h.num_lt
      num_inj := h.num_inj
      num_ann := h.num_ann
      num_closed := h.num_closed
      ann_open := h.ann_open }
  | some n =>
    have hnums : ∀ m c, (s.numbers.erase n).get? m = some c → s.numbers.get? m = some c := by
      intro m c hg
      rw [GMap.get?_erase] at hg
      split at hg
      · simp at hg
      · exact hg
    have hnum : ∀ m c, WS.IsNum { s with numbers := s.numbers.erase n, hashes := s.hashes.erase e.hash, expired := .number n :: .hash e.hash :: s.expired } m c → s.IsNum m c := by
      rintro m c (hg | hg)
      · exact .inl (hnums m c hg)
      · exact .inr hg
    exact { h with
      hash_taken := fun x c hg => h.hash_taken x c (hhash x c hg)
      hash_kept := fun w hw => hkept w hw _ (fun _ hk => List.mem_cons_of_mem _ (List.mem_cons_of_mem _ hk))
        (List.mem_cons_of_mem _ (List.mem_cons_self ..))
      num_kept := fun w hw => by
        show (s.numbers.erase n).get? w.ann.number ≠ none ∨ _
        by_cases he : w.ann.number = n
        · rw [he]; exact .inr (List.mem_cons_self ..)
        · rw [GMap.get?_erase, if_neg (fun e => he e.symm)]
          exact (h.num_kept w hw).imp id (fun hk => List.mem_cons_of_mem _ (List.mem_cons_of_mem _ hk))
      num_taken := fun m c hg => h.num_taken m c (hnums m c hg)
      num_lt := fun m c hm => h.num_lt m c (hnum m c hm)
      num_inj := fun m m' c hm hm' => h.num_inj m m' c (hnum m c hm) (hnum m' c hm')
      num_ann := fun m c hm => h.num_ann m c (hnum m c hm)
      num_closed := fun m c hm => h.num_closed m c (hnum m c hm)
      ann_open := h.ann_open }

/-- Fields the invariant does not mention, and calls that end. -/
theorem WS.Inv.frame (h : s.Inv) {sl : List Sleeper} {cs : List WaitCall} {st : Bool} (hc : ∀ x ∈ cs, x ∈ s.calls) :
    WS.Inv { s with sleeping := sl, calls := cs, stopped := st } :=
  { h with
    call_hash := fun x hx => h.call_hash x (hc x hx)
    call_num := fun x hx => h.call_num x (hc x hx)
    num_lt := h.num_lt
    num_inj := h.num_inj
    num_ann := h.num_ann
    num_closed := h.num_closed
    ann_open := h.ann_open }

theorem WS.Inv.found (h : s.Inv) {k : WKey} {c : Nat} (hl : s.lookup k = some c) : WS.Inv { s with calls := s.calls ++ [⟨k, c⟩] } :=
  { h with
    call_hash := fun x hx b hk => by
      rcases List.mem_append.mp hx with hx | hx
      · exact h.call_hash x hx b hk
      · rw [List.mem_singleton.mp hx] at hk ⊢
        subst hk
        obtain ⟨l1, w, l2, e, e1, e2, _⟩ := h.hash_taken b c hl
        exact ⟨w, by rw [e]; simp, e1, e2⟩
    call_num := fun x hx n hk => by
      rcases List.mem_append.mp hx with hx | hx
      · exact h.call_num x hx n hk
      · rw [List.mem_singleton.mp hx] at hk ⊢
        subst hk
        exact h.num_taken n c hl
    num_lt := h.num_lt
    num_inj := h.num_inj
    num_ann := h.num_ann
    num_closed := h.num_closed
    ann_open := h.ann_open }

/-- Every step goes well and keeps the invariant. -/
theorem WS.Inv.step (h : s.Inv) {r : Option (WKey × WaitResult)} {x : Except Fault WS} (hs : WS.Step s r x) : ∃ t, x = .ok t ∧ t.Inv := by
  cases hs with
  | newBlock => exact ⟨_, rfl, h.newBlock _ _⟩
  | foreign => exact ⟨_, rfl, h.foreign _ _⟩
  | complete hb => exact ⟨_, rfl, h.complete hb⟩
  | doneAll _ => obtain ⟨t, h1, h2, _⟩ := h.doneAll _; exact ⟨t, h1, h2⟩
  | take hq => exact ⟨_, rfl, h.take hq⟩
  | hashFired hw hc => exact h.hashFired hw hc
  | numberFired hw hc => exact ⟨_, rfl, h.unwatch hw hc _⟩
  | @expire l1 e l2 he =>
    exact ⟨_, rfl, (h.frame (sl := l1 ++ l2) (cs := s.calls) (st := s.stopped) (fun _ hx => hx)).expire e⟩
  | notFound _ => exact ⟨_, rfl, h⟩
  | found hl => exact ⟨_, rfl, h.found hl⟩
  | @success l1 c l2 hc _ =>
    exact ⟨_, rfl, h.frame (sl := s.sleeping) (cs := l1 ++ l2) (st := s.stopped) (fun x hx => by
      rw [hc]; rcases List.mem_append.mp hx with hx | hx
      · exact List.mem_append_left _ hx
      · exact List.mem_append_right _ (List.mem_cons_of_mem _ hx))⟩
  | @timeout l1 c l2 hc =>
    exact ⟨_, rfl, h.frame (sl := s.sleeping) (cs := l1 ++ l2) (st := s.stopped) (fun x hx => by
      rw [hc]; rcases List.mem_append.mp hx with hx | hx
      · exact List.mem_append_left _ hx
      · exact List.mem_append_right _ (List.mem_cons_of_mem _ hx))⟩
  | stop _ => exact ⟨_, rfl, h.frame (sl := s.sleeping) (cs := s.calls) (st := true) (fun _ hx => hx)⟩

theorem WS.Reach.inv (h : WS.Reach s) : s.Inv := by
  induction h with
  | init => exact .init
  | step _ hs ih => obtain ⟨t, e, ht⟩ := ih.step hs; cases e; exact ht

end Verif
