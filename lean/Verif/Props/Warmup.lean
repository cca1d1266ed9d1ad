import Verif.Model.Warmup
/-!
# C67: the partitions of a Kafka consumer
-/
namespace Verif

/-- What has been forwarded of a partition. -/
def forwarded (out : List (Nat × RMsg)) (i : Nat) : List RMsg := (out.filter (fun e => e.1 = i)).map Prod.snd

/-- The message in hand. -/
def WarmPhase.held : WarmPhase → List RMsg
  | .waiting m => [m]
  | _ => []

theorem forwarded_snoc (out : List (Nat × RMsg)) (i j : Nat) (m : RMsg) :
    forwarded (out ++ [(i, m)]) j = forwarded out j ++ if i = j then [m] else [] := by
  unfold forwarded
  rw [List.filter_append, List.map_append]
  by_cases h : i = j <;> simp [h]

/-- The messages of a partition are the forwarded ones, the one in hand and those to come, in this order. -/
structure WInv (n : Nat) (start : Nat → Int) (msgs : Nat → List RMsg) (s : WState) : Prop where
  n_eq : s.n = n
  all : ∀ i, msgs i = forwarded s.out i ++ (s.part i).phase.held ++ (s.part i).todo
  start_eq : ∀ i, (s.part i).start = start i
  cold : ∀ i, (s.part i).phase = .cold → ∀ m ∈ forwarded s.out i, m.offset < start i
  other : ∀ i, n ≤ i → forwarded s.out i = []

theorem winv_steps {n : Nat} {start : Nat → Int} {msgs : Nat → List RMsg} {s : WState} (h : WState.Steps (.init n start msgs) s) :
    WInv n start msgs s := by
  induction h with
  | refl => exact ⟨rfl, fun i => by simp [WState.init, WarmPhase.held, forwarded], fun _ => rfl, fun i _ => by simp [WState.init, forwarded],
      fun i _ => by simp [WState.init, forwarded]⟩
  | tail _ hst ih =>
    obtain ⟨h0, h1, h2, h3, h4⟩ := ih
    cases hst with
    | @arrive i m ms hi ht hp ho =>
      refine ⟨h0, ?_, ?_, ?_, h4⟩
      · intro j
        have := h1 j
        by_cases hj : j = i
        · subst hj; rw [this, ht, hp]; simp [WState.upd, WarmPhase.held]
        · simpa [WState.upd, hj] using this
      · intro j; by_cases hj : j = i <;> simp [WState.upd, hj, h2]
      · intro j
        by_cases hj : j = i
        · simp [WState.upd, hj]
        · simpa [WState.upd, hj] using h3 j
    | @early i m ms hi ht hp ho =>
      refine ⟨h0, ?_, ?_, ?_, ?_⟩
      · intro j
        have := h1 j
        by_cases hj : j = i
        · subst hj; rw [this, ht, hp]; simp [WState.upd, WarmPhase.held, forwarded_snoc]
        · have hj' : ¬ i = j := fun e => hj e.symm
          simpa [WState.upd, hj, forwarded_snoc, hj'] using this
      · intro j; by_cases hj : j = i <;> simp [WState.upd, hj, h2]
      · intro j
        by_cases hj : j = i
        · subst hj
          intro _ x hx
          simp only [forwarded_snoc, if_true, List.mem_append, List.mem_singleton] at hx
          rcases hx with hx | rfl
          · exact h3 _ hp x hx
          · rw [← h2]; exact ho
        · have hj' : ¬ i = j := fun e => hj e.symm
          simpa [WState.upd, hj, forwarded_snoc, hj'] using h3 j
      · intro j hj
        have hj' : ¬ i = j := by omega
        simpa [forwarded_snoc, hj'] using h4 j hj
    | @pass i m hi hp hall =>
      refine ⟨h0, ?_, ?_, ?_, ?_⟩
      · intro j
        have := h1 j
        by_cases hj : j = i
        · subst hj; rw [this, hp]; simp [WState.upd, WarmPhase.held, forwarded_snoc]
        · have hj' : ¬ i = j := fun e => hj e.symm
          simpa [WState.upd, hj, forwarded_snoc, hj'] using this
      · intro j; by_cases hj : j = i <;> simp [WState.upd, hj, h2]
      · intro j
        by_cases hj : j = i
        · simp [WState.upd, hj]
        · have hj' : ¬ i = j := fun e => hj e.symm
          simpa [WState.upd, hj, forwarded_snoc, hj'] using h3 j
      · intro j hj
        have hj' : ¬ i = j := by omega
        simpa [forwarded_snoc, hj'] using h4 j hj
    | @forward i m ms hi ht hp =>
      refine ⟨h0, ?_, ?_, ?_, ?_⟩
      · intro j
        have := h1 j
        by_cases hj : j = i
        · subst hj; rw [this, ht, hp]; simp [WState.upd, WarmPhase.held, forwarded_snoc]
        · have hj' : ¬ i = j := fun e => hj e.symm
          simpa [WState.upd, hj, forwarded_snoc, hj'] using this
      · intro j; by_cases hj : j = i <;> simp [WState.upd, hj, h2]
      · intro j
        by_cases hj : j = i
        · simp [WState.upd, hj]
        · have hj' : ¬ i = j := fun e => hj e.symm
          simpa [WState.upd, hj, forwarded_snoc, hj'] using h3 j
      · intro j hj
        have hj' : ¬ i = j := by omega
        simpa [forwarded_snoc, hj'] using h4 j hj

/-- **C67**: at any time what has been forwarded of a partition is a prefix of its messages. -/
theorem C67_prefix {n : Nat} {start : Nat → Int} {msgs : Nat → List RMsg} {s : WState} (h : WState.Steps (.init n start msgs) s) (i : Nat) :
    forwarded s.out i <+: msgs i := by
  rw [(winv_steps h).all i, List.append_assoc]
  exact List.prefix_append _ _

/-- **C67**: when every partition has a message at or after its start offset, the goroutines stop only when everything has been
forwarded. -/
theorem C67_all_partial {n : Nat} {start : Nat → Int} {msgs : Nat → List RMsg} {s : WState} (h : WState.Steps (.init n start msgs) s)
    (hw : ∀ i, i < n → ∃ m ∈ msgs i, start i ≤ m.offset) (hstuck : ∀ t, ¬ WState.Step s t) (i : Nat) (hi : i < n) :
    forwarded s.out i = msgs i := by
  have hv := winv_steps h
  have hn := hv.n_eq
  have hcold : ∀ j, j < n → (s.part j).phase ≠ .cold := by
    intro j hj hc
    have htodo : (s.part j).todo = [] := by
      cases ht : (s.part j).todo with
      | nil => rfl
      | cons m ms =>
        by_cases ho : m.offset ≥ (s.part j).start
        · exact absurd (WState.Step.arrive (hn ▸ hj) ht hc ho) (hstuck _)
        · exact absurd (WState.Step.early (hn ▸ hj) ht hc (by omega)) (hstuck _)
    obtain ⟨m, hm, ho⟩ := hw j hj
    rw [hv.all j, hc, htodo] at hm
    simp only [WarmPhase.held, List.append_nil] at hm
    have := hv.cold j hc m hm
    omega
  rw [hv.all i]
  cases hp : (s.part i).phase with
  | cold => exact absurd hp (hcold i hi)
  | waiting m => exact absurd (WState.Step.pass (hn ▸ hi) hp (fun j hj => hcold j (hn ▸ hj))) (hstuck _)
  | warm =>
    cases ht : (s.part i).todo with
    | nil => simp [WarmPhase.held]
    | cons m ms => exact absurd (WState.Step.forward (hn ▸ hi) ht hp) (hstuck _)

/-- Steps still possible for a goroutine. -/
def WPart.left (p : WPart) : Nat := 2 * p.todo.length + p.phase.held.length

/-- All of them. -/
def WState.left (s : WState) : Nat := ((List.range s.n).map (fun i => (s.part i).left)).sum

theorem sum_upd_lt (l : List Nat) (hl : l.Nodup) (f g : Nat → Nat) (i : Nat) (hi : i ∈ l) (hlt : g i < f i) (hne : ∀ j, j ≠ i → g j = f j) :
    (l.map g).sum < (l.map f).sum := by
  induction l with
  | nil => simp at hi
  | cons a l ih =>
    rw [List.nodup_cons] at hl
    simp only [List.map_cons, List.sum_cons]
    by_cases ha : a = i
    · subst ha
      have : l.map g = l.map f := List.map_congr_left (fun j hj => hne j (fun e => hl.1 (e ▸ hj)))
      rw [this]; omega
    · have := ih hl.2 (by simpa [Ne.symm ha] using hi)
      have := hne a ha
      omega

/-- **C67**: every step brings the end nearer, so with finitely many messages every schedule ends. -/
theorem C67_progress {s t : WState} (h : WState.Step s t) : t.left < s.left := by
  have key : ∀ i p, i < s.n → p.left < (s.part i).left → ∀ out, ({ s.upd i p with out := out } : WState).left < s.left := by
    intro i p hi hlt out
    apply sum_upd_lt (List.range s.n) List.nodup_range _ _ i (List.mem_range.mpr hi)
    · simpa [WState.upd] using hlt
    · intro j hj; simp [WState.upd, hj]
  cases h with
  | @arrive i m ms hi ht hp ho => exact key i _ hi (by simp [WPart.left, ht, hp, WarmPhase.held]; omega) s.out
  | @early i m ms hi ht hp ho => exact key i _ hi (by simp [WPart.left, ht, hp, WarmPhase.held]) _
  | @pass i m hi hp hall => exact key i _ hi (by simp [WPart.left, hp, WarmPhase.held]) _
  | @forward i m ms hi ht hp => exact key i _ hi (by simp [WPart.left, ht, hp, WarmPhase.held]) _

/-- Two partitions; the second is empty. -/
def exMsg : RMsg := ⟨[0], [], 5, str "t:0"⟩
def exWarm : WState := .init 2 (fun _ => 5) (fun i => if i = 0 then [exMsg] else [])

theorem exWarm_step : WState.Step exWarm (exWarm.upd 0 ⟨5, [], .waiting exMsg⟩) :=
  .arrive (i := 0) (m := exMsg) (ms := []) (by decide) rfl rfl (by decide)

/-- **C67** refuted: an empty partition stops all others as soon as they reach their start offset. -/
theorem C67_refuted : ¬ ∀ (n : Nat) (start : Nat → Int) (msgs : Nat → List RMsg) (s : WState), WState.Steps (.init n start msgs) s →
    (∀ t, ¬ WState.Step s t) → ∀ i, i < n → forwarded s.out i = msgs i := by
  intro h
  have := h 2 _ _ _ (.tail .refl exWarm_step) ?_ 0 (by decide)
  · simp [forwarded, exWarm, WState.upd, WState.init] at this
  · intro t ht
    have h2 : ∀ j, j < 2 → j = 0 ∨ j = 1 := by omega
    cases ht with
    | @arrive i m ms hi ht hp ho =>
      rcases h2 i hi with rfl | rfl
      · simp [WState.upd] at hp
      · simp [WState.upd, exWarm, WState.init] at ht
    | @early i m ms hi ht hp ho =>
      rcases h2 i hi with rfl | rfl
      · simp [WState.upd] at hp
      · simp [WState.upd, exWarm, WState.init] at ht
    | @pass i m hi hp hall => exact hall 1 (by decide) rfl
    | @forward i m ms hi ht hp =>
      rcases h2 i hi with rfl | rfl
      · simp [WState.upd] at hp
      · simp [WState.upd, exWarm, WState.init] at ht

/-- C67: with a message in both partitions the run ends with both forwarded. -/
example : ∃ s, WState.Steps (.init 2 (fun _ => 5) (fun _ => [exMsg])) s ∧ forwarded s.out 0 = [exMsg] ∧ forwarded s.out 1 = [exMsg] := by
  have a := WState.Steps.tail .refl (.arrive (s := .init 2 (fun _ => 5) (fun _ => [exMsg])) (i := 0) (m := exMsg) (ms := []) (by decide) rfl rfl (by decide))
  have b := a.tail (.arrive (i := 1) (m := exMsg) (ms := []) (by decide) rfl rfl (by decide))
  have c := b.tail (.pass (i := 1) (m := exMsg) (by decide) rfl (fun j (hj : j < 2) => by
    have : j = 0 ∨ j = 1 := by omega
    rcases this with rfl | rfl <;> simp [WState.upd]))
  have d := c.tail (.pass (i := 0) (m := exMsg) (by decide) rfl (fun j (hj : j < 2) => by
    have : j = 0 ∨ j = 1 := by omega
    rcases this with rfl | rfl <;> simp [WState.upd]))
  exact ⟨_, d, rfl, rfl⟩

end Verif
