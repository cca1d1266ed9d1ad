import Verif.Model.OmpClose
/-!
# C110: closing the ordering layer
-/
namespace Verif

theorem OSys.Steps.trans {q : Bool} {s t u : OSys} (h : OSys.Steps q s t) (h' : OSys.Steps q t u) : OSys.Steps q s u := by
  induction h' with
  | refl => exact h
  | step _ hst hq ih => exact .step ih hst hq

theorem OSys.Steps.any {q : Bool} {s t : OSys} (h : OSys.Steps q s t) : OSys.Steps false s t := by
  induction h with
  | refl => exact .refl
  | step _ hst _ ih => exact .step ih hst (fun h => by cases h)

/-- The invariant: deadlines have not passed; an item that waits while the goroutine has been in its `select` for some time has just come. -/
structure OCInv (s : OSys) : Prop where
  deadline : ∀ t, s.closer = .waiting t → s.now ≤ t + closeWait
  timer : ∀ t, s.place = .selecting t → t ≤ s.now ∧ s.now ≤ t + quitPoll
  fresh : ∀ t, s.place = .selecting t → t = s.now ∨ ∀ a ∈ s.queue, a = s.now
  past : ∀ a ∈ s.queue, a ≤ s.now
  heard : s.place = .ended → s.closer = .done true

theorem ocinv_step {s u : OSys} {b : Bool} (hv : OCInv s) (h : OSys.Step s b u) : OCInv u := by
  cases h with
  | tick hu =>
    have h1 : ∀ t, s.place = .selecting t → s.queue = [] ∧ s.now < t + quitPoll := by
      intro t ht
      refine ⟨Classical.byContradiction fun h => hu (.inl ⟨t, ht, .inl h⟩), Nat.lt_of_not_le fun h => hu (.inl ⟨t, ht, .inr h⟩)⟩
    have h2 : ∀ t, s.closer = .waiting t → s.now < t + closeWait := fun t ht => Nat.lt_of_not_le fun h => hu (.inr ⟨t, ht, h⟩)
    refine ⟨fun t ht => h2 t ht, fun t ht => ⟨Nat.le_succ_of_le (hv.timer t ht).1, (h1 t ht).2⟩, fun t ht => .inr fun a ha => ?_, fun a ha => Nat.le_succ_of_le (hv.past a ha), hv.heard⟩
    have ha : a ∈ s.queue := ha
    rw [(h1 t ht).1] at ha; cases ha
  | arrive hl =>
    refine ⟨hv.deadline, hv.timer, fun t ht => ?_, fun a ha => ?_, hv.heard⟩
    · rcases hv.fresh t ht with h | h
      · exact .inl h
      · refine .inr fun a ha => ?_
        rcases List.mem_append.mp ha with ha | ha
        · exact h a ha
        · exact List.mem_singleton.mp ha
    · rcases List.mem_append.mp ha with ha | ha
      · exact hv.past a ha
      · exact Nat.le_of_eq (List.mem_singleton.mp ha)
  | take hp hq => exact ⟨hv.deadline, (fun t h => by cases h), (fun t h => by cases h), fun a ha => hv.past a (by rw [hq]; exact List.mem_cons_of_mem _ ha), (fun h => by cases h)⟩
  | finish hp =>
    refine ⟨hv.deadline, fun t ht => ?_, fun t ht => ?_, hv.past, (fun h => by cases h)⟩
    · cases ht; exact ⟨Nat.le_refl _, Nat.le_add_right _ _⟩
    · cases ht; exact .inl rfl
  | poll hp hn hc =>
    refine ⟨hv.deadline, fun t ht => ?_, fun t ht => ?_, hv.past, (fun h => by cases h)⟩
    · cases ht; exact ⟨Nat.le_refl _, Nat.le_add_right _ _⟩
    · cases ht; exact .inl rfl
  | quit hp hn hc => exact ⟨(fun t h => by cases h), (fun t h => by cases h), (fun t h => by cases h), hv.past, fun _ => rfl⟩
  | call hc =>
    refine ⟨fun t ht => ?_, hv.timer, hv.fresh, hv.past, fun h => ?_⟩
    · cases ht; exact Nat.le_add_right _ _
    · have := hv.heard h; rw [hc] at this; cases this
  | giveUp hc hn => exact ⟨(fun t h => by cases h), hv.timer, hv.fresh, hv.past, fun h => by have := hv.heard h; rw [hc] at this; cases this⟩

theorem ocinv_steps {q : Bool} {s : OSys} (h : OSys.Steps q .init s) : OCInv s := by
  induction h with
  | refl => exact ⟨(fun t h => by cases h), fun t h => by cases h; exact ⟨Nat.le_refl _, Nat.zero_le _⟩, (fun t h => by cases h; exact .inl rfl), (fun a h => by cases h), (fun h => by cases h)⟩
  | step _ hst _ ih => exact ocinv_step ih hst

/-- **C110**, the queue: at most a hundred items wait, and as long as there are fewer another can come. -/
theorem C110_room {s : OSys} (h : OSys.Steps false .init s) : s.queue.length ≤ 100 ∧
    ((∃ u, OSys.Step s true u) ↔ s.queue.length < 100) := by
  have key : s.queue.length ≤ 100 := by
    induction h with
    | refl => exact Nat.zero_le _
    | step _ hst _ ih =>
      cases hst with
      | arrive hl => rw [List.length_append]; exact hl
      | take hp hq => rw [hq] at ih; exact Nat.le_of_succ_le ih
      | _ => exact ih
  refine ⟨key, fun ⟨u, hu⟩ => ?_, fun hl => ⟨_, .arrive hl⟩⟩
  cases hu with
  | arrive hl => exact hl

/-- **C110**: `Close` returns: a second after the call it has returned or returns now. It can always go on: there is a step that is not an arrival. -/
theorem C110_returns {s : OSys} (h : OSys.Steps false .init s) {t : Nat} (hc : s.closer = .waiting t) :
    s.now ≤ t + 1000 ∧ (∃ u, OSys.Step s false u) ∧ (s.now = t + 1000 → OSys.Step s false { s with closer := .done false } ∧ ¬ OSys.Step s false { s with now := s.now + 1 }) := by
  have hv := ocinv_steps h
  refine ⟨hv.deadline t hc, ?_, fun he => ⟨.giveUp hc (Nat.le_of_eq he.symm), ?_⟩⟩
  · by_cases hu : s.urgent
    · rcases hu with ⟨t', hp, hq⟩ | ⟨t', hc', hn⟩
      · rcases hq with hq | hn
        · cases hqq : s.queue with
          | nil => exact absurd hqq hq
          | cons x rest => exact ⟨_, .take hp hqq⟩
        · exact ⟨_, .quit hp hn hc⟩
      · exact ⟨_, .giveUp hc' hn⟩
    · exact ⟨_, .tick hu⟩
  · intro hst
    generalize hu : ({ s with now := s.now + 1 } : OSys) = u at hst
    generalize hb : false = b at hst
    have hnow : u.now = s.now + 1 := by rw [← hu]
    cases hst with
    | tick hn => exact hn (.inr ⟨t, hc, Nat.le_of_eq he.symm⟩)
    | _ => simp only at hnow; omega

/-- **C110** (partial: when nothing more arrives; `C110_refuted_busy` shows why): if the goroutine is in its `select` with nothing to do more than a quarter of a second before
`Close` gives up, then it returns within a quarter of a second, and `Close` with it. -/
theorem C110_partial {s u : OSys} (h : OSys.Steps false .init s) {t t1 : Nat} (hp : s.place = .selecting t) (hq : s.queue = []) (hc : s.closer = .waiting t1)
    (hn : s.now + 250 < t1 + 1000) (hu : OSys.Steps true s u) (hlate : s.now + 250 < u.now) : u.place = .ended ∧ u.closer = .done true := by
  have h0 := ocinv_steps h
  have key : (u.place = .ended ∧ u.closer = .done true) ∨ (u.place = .selecting t ∧ u.queue = [] ∧ u.closer = .waiting t1 ∧ u.now ≤ t + 250) := by
    clear hlate
    induction hu with
    | refl => exact .inr ⟨hp, hq, hc, (h0.timer t hp).2⟩
    | @step v w b hsv hst hb ih =>
      have hb := hb rfl
      subst hb
      have hv := ocinv_steps (h.trans hsv.any)
      rcases ih with ⟨e1, e2⟩ | ⟨e1, e2, e3, e4⟩
      · left
        cases hst with
        | tick => exact ⟨e1, e2⟩
        | take hp => rw [e1] at hp; cases hp
        | finish hp => rw [e1] at hp; cases hp
        | poll hp => rw [e1] at hp; cases hp
        | quit hp => rw [e1] at hp; cases hp
        | call hc => rw [e2] at hc; cases hc
        | giveUp hc => rw [e2] at hc; cases hc
      · cases hst with
        | tick hu =>
          refine .inr ⟨e1, e2, e3, ?_⟩
          exact Nat.lt_of_not_le fun h => hu (.inl ⟨t, e1, .inr h⟩)
        | take _ hq => rw [e2] at hq; cases hq
        | finish hp => rw [e1] at hp; cases hp
        | poll _ _ hc => exact absurd e3 (hc t1)
        | quit => exact .inl ⟨rfl, rfl⟩
        | call hc => rw [e3] at hc; cases hc
        | @giveUp t2 hc hx =>
          rw [e3] at hc; cases hc
          have := (h0.timer t hp).1
          have : t1 + 1000 ≤ v.now := hx
          omega
  rcases key with h | ⟨_, _, _, h⟩
  · exact h
  · have := (h0.timer t hp).1; omega

/-- **C110**: the goroutine returns only when `Close` has been heard, and then everything has been handled except what came in that very moment. -/
theorem C110_last {s u : OSys} {b : Bool} (h : OSys.Steps false .init s) (hst : OSys.Step s b u) (hs : s.place ≠ .ended) (hu : u.place = .ended) :
    u.closer = .done true ∧ ∀ a ∈ u.queue, a = u.now := by
  have hv := ocinv_steps h
  cases hst with
  | @quit t t' hp hn hc =>
    refine ⟨rfl, fun a ha => ?_⟩
    rcases hv.fresh t hp with h | h
    · have : t + 250 ≤ s.now := hn
      omega
    · exact h a ha
  | take => cases hu
  | finish => cases hu
  | poll => cases hu
  | _ => exact absurd hu hs

/-- **C110**: when `Close` has given up the goroutine stays for ever. -/
theorem C110_stays {s u : OSys} (h : OSys.Steps false .init s) (hc : s.closer = .done false) (hu : OSys.Steps false s u) : u.place ≠ .ended ∧ u.closer = .done false := by
  have key : u.closer = .done false := by
    induction hu with
    | refl => exact hc
    | @step v w b _ hst _ ih =>
      cases hst with
      | quit _ _ hc => rw [ih] at hc; cases hc
      | call hc => rw [ih] at hc; cases hc
      | giveUp _ _ => rfl
      | _ => exact ih
  refine ⟨fun he => ?_, key⟩
  have := (ocinv_steps (h.trans hu)).heard he
  rw [key] at this; cases this

theorem oticks_select {s : OSys} {t : Nat} (hp : s.place = .selecting t) (hq : s.queue = []) (n : Nat) (h1 : s.now + n ≤ t + quitPoll)
    (h2 : ∀ t, s.closer = .waiting t → s.now + n ≤ t + closeWait) : OSys.Steps true s { s with now := s.now + n } := by
  induction n with
  | zero => exact .refl
  | succ n ih =>
    have := ih (by omega) (fun t h => by have := h2 t h; omega)
    refine this.step (.tick ?_) (fun _ => rfl)
    rintro (⟨t', h, h' | h'⟩ | ⟨t', h, h'⟩)
    · exact h' hq
    · have h : s.place = .selecting t' := h
      rw [hp] at h; cases h
      have h' : t + quitPoll ≤ s.now + n := h'
      omega
    · have := h2 t' h
      have h' : t' + closeWait ≤ s.now + n := h'
      omega

/-- An item after 200 milliseconds. -/
theorem oround {s : OSys} (hp : s.place = .selecting s.now) (hq : s.queue = []) (h2 : ∀ t, s.closer = .waiting t → s.now + 200 ≤ t + closeWait) :
    OSys.Steps false s { s with now := s.now + 200, place := .selecting (s.now + 200), handled := s.handled ++ [s.now + 200] } := by
  have h1 := (oticks_select hp hq 200 (by simp [quitPoll]) h2).any
  have h3 := h1.step (.arrive (by rw [show ({ s with now := s.now + 200 } : OSys).queue = [] from hq]; decide)) (fun h => by cases h)
  have h4 := h3.step (.take (x := s.now + 200) (rest := []) hp (by simp [hq])) (fun h => by cases h)
  have h5 := h4.step (.finish rfl) (fun h => by cases h)
  rw [show s = { s with queue := [] } by rw [← hq]]
  rw [show s = { s with queue := [] } by rw [← hq]] at h5
  exact h5

/-- **C110 fails** while items come: with one item every 200 milliseconds `Close` is not heard; it gives up, and the goroutine stays (`C110_stays`). -/
theorem C110_refuted_busy : ∃ s, OSys.Steps false .init s ∧ s.closer = .done false ∧ s.place ≠ .ended ∧ s.queue = [] ∧ s.handled = [200, 400, 600, 800, 1000] := by
  have h0 : OSys.Steps false .init _ := .step .refl (.call rfl) (fun h => by cases h)
  have h1 := h0.trans (oround rfl rfl (fun t h => by cases h; decide))
  have h2 := h1.trans (oround rfl rfl (fun t h => by cases h; decide))
  have h3 := h2.trans (oround rfl rfl (fun t h => by cases h; decide))
  have h4 := h3.trans (oround rfl rfl (fun t h => by cases h; decide))
  have h5 := h4.trans (oround rfl rfl (fun t h => by cases h; decide))
  have h6 := h5.step (.giveUp (t := 0) rfl (by decide)) (fun h => by cases h)
  exact ⟨_, h6, rfl, by simp, rfl, rfl⟩

/-- **C110 fails** for an item that comes at the moment at which the timer fires: both cases of the `select` are possible, the goroutine returns and the item is lost. -/
theorem C110_refuted_lost : ∃ s, OSys.Steps false .init s ∧ s.closer = .done true ∧ s.place = .ended ∧ s.queue = [250] ∧ s.handled = [] := by
  have h0 : OSys.Steps false .init _ := .step .refl (.call rfl) (fun h => by cases h)
  have h1 := h0.trans (oticks_select (t := 0) rfl rfl 250 (by decide) (fun t h => by cases h; decide)).any
  have h2 := h1.step (.arrive (by decide)) (fun h => by cases h)
  have h3 := h2.step (.quit (t := 0) (t' := 0) rfl (by decide) rfl) (fun h => by cases h)
  exact ⟨_, h3, rfl, rfl, rfl, rfl⟩

/-- A case that meets the hypotheses of `C110_returns`, `C110_partial` and `C110_last`: `Close` is called at once and heard after 250 milliseconds. -/
example : ∃ s u v : OSys, OSys.Steps false .init s ∧ s.place = .selecting 0 ∧ s.queue = [] ∧ s.closer = .waiting 0 ∧ s.now + 250 < 0 + 1000 ∧
    OSys.Steps true s u ∧ u.place ≠ .ended ∧ OSys.Step u false v ∧ v.place = .ended := by
  refine ⟨_, _, _, .step .refl (.call rfl) (fun h => by cases h), rfl, rfl, rfl, by decide,
    oticks_select (t := 0) rfl rfl 250 (by decide) (fun t h => by cases h; decide), ?_, .quit (t := 0) (t' := 0) rfl (by decide) rfl, rfl⟩
  simp [OSys.init]

end Verif
