import Verif.Props.Lifecycle
/-!
# C92: closing a Kafka consumer
-/
namespace Verif

variable {hwm : Nat → RMsg → Int} {isReorg : Bool} {topic : GoStr} {n : Nat} {start : Nat → Int} {msgs : Nat → List RMsg} {nr nc : Nat}

/-- The consumer is closed only after every partition has delivered a message at or after its start offset. -/
def Spec.LateClose (R : LSys → LSys → Prop) (s t : LSys) : Prop :=
  R s t ∧ (s.closers.length < t.closers.length → ∀ i, i < s.n → (s.part i).arrived = true)

/-- A goroutine that has not begun has not arrived; one that has arrived stays so. -/
structure LFresh (s : LSys) : Prop where
  fresh : ∀ i, (s.part i).phase = .fresh → (s.part i).warm = false

theorem lupd_part (s : LSys) (i : Nat) (p : LPart) (j : Nat) : (s.upd i p).part j = if j = i then p else s.part j := rfl

theorem LPart.receive_fresh {p : LPart} {s : LSys} {x : Int} {m : RMsg} {ms : List RMsg} :
    (p.receive s x m ms).phase ≠ .fresh ∧ (p.receive s x m ms).phase ≠ .ended ∧ (p.warm = true → (p.receive s x m ms).warm = true) ∧
    (p.receive s x m ms).live = p.live := by
  unfold LPart.receive
  split <;> simp

theorem lfresh_steps {R : LSys → LSys → Prop} (hR : ∀ s t, R s t → LSys.Step hwm isReorg topic s t) {s : LSys}
    (h : LSys.Steps R (.init n start msgs nr nc) s) : LFresh s := by
  induction h with
  | refl => exact ⟨fun _ _ => rfl⟩
  | @step t u _ hst ih =>
    obtain ⟨ih⟩ := ih
    have key : ∀ i p, (p.phase = .fresh → p.warm = false) → LFresh (t.upd i p) := by
      intro i p hp
      refine ⟨fun j hj => ?_⟩
      rw [lupd_part] at hj ⊢
      split at hj
      · rename_i e; rw [if_pos e]; exact hp hj
      · rename_i e; rw [if_neg e]; exact ih j hj
    cases hR _ _ hst <;> first | exact ⟨ih⟩ | skip
    case begin => exact key _ _ (by simp)
    case receive => exact key _ _ (fun h => absurd h LPart.receive_fresh.1)
    case warmed => exact key _ _ (by simp)
    case send => exact ⟨(key _ { t.part _ with phase := .reading } (by simp)).fresh⟩
    case finish => exact key _ _ (by simp)
    case closePart i ms hk hi hs => exact ⟨(key i { t.part i with todo := ms, live := false } (ih i)).fresh⟩

/-- Arrived goroutines stay arrived. -/
theorem larrived_step {s t : LSys} (h : LSys.Step hwm isReorg topic s t) (i : Nat) (ha : (s.part i).arrived = true) : (t.part i).arrived = true := by
  have key : ∀ j p, ((s.part j).arrived = true → p.arrived = true) → ((s.upd j p).part i).arrived = true := by
    intro j p hp
    rw [lupd_part]
    split
    · rename_i e; exact hp (e ▸ ha)
    · exact ha
  cases h <;> first | exact ha | skip
  case begin j hj hp => exact key _ _ (by simp [LPart.arrived, hp])
  case receive j m ms hj hp ht =>
    refine key _ _ ?_
    unfold LPart.receive
    split <;> simp [LPart.arrived, hp]
  case warmed => exact key _ _ (by simp [LPart.arrived])
  case send j m hj hp _ _ => exact key j { s.part j with phase := .reading } (by simp [LPart.arrived, hp])
  case finish j hj hp _ _ => exact key _ _ (by simp [LPart.arrived, hp])
  case closePart k j ms hk hi hs => exact key j { s.part j with todo := ms, live := false } (by simp [LPart.arrived])

/-- How far a single `Close` is. -/
inductive LClose (s : LSys) : Prop
  | before : s.callers = [.soon] → s.closers = [] → s.chanOpen = true → LClose s
  | closing (i : Nat) : (∃ c, s.callers = [c] ∧ c ≠ .soon) → s.closers = [.closing i] → s.chanOpen = true → (∀ j, j < i → (s.part j).live = false) → LClose s
  | waiting : (∃ c, s.callers = [c] ∧ c ≠ .soon) → s.closers = [.waiting] → s.chanOpen = true → (∀ j, j < s.n → (s.part j).live = false) → LClose s
  | closed : (∃ c, s.callers = [c] ∧ c ≠ .soon) → s.closers = [.closed] → s.chanOpen = false → (∀ j, j < s.n → (s.part j).phase = .ended) → LClose s

theorem single {α : Type} {l : List α} {x : α} {k : Nat} {y : α} (h : l = [x]) (hk : l[k]? = some y) : k = 0 ∧ x = y := by
  subst h
  cases k with
  | zero => simp at hk; exact ⟨rfl, hk⟩
  | succ k => simp at hk

/-- A closed partition consumer stays closed. -/
theorem llive_step {s t : LSys} (h : LSys.Step hwm isReorg topic s t) (i : Nat) (ha : (s.part i).live = false) : (t.part i).live = false := by
  have key : ∀ j p, ((s.part j).live = false → p.live = false) → ((s.upd j p).part i).live = false := by
    intro j p hp
    rw [lupd_part]
    split
    · rename_i e; exact hp (e ▸ ha)
    · exact ha
  cases h <;> first | exact ha | skip
  case begin j hj hp => exact key _ _ id
  case receive j m ms hj hp ht => exact key _ _ (fun e => by rw [LPart.receive_fresh.2.2.2]; exact e)
  case warmed => exact key _ _ id
  case send j m hj hp _ _ => exact key j { s.part j with phase := .reading } id
  case finish j hj hp _ _ => exact key _ _ id
  case closePart k j ms hk hi hs => exact key j { s.part j with todo := ms, live := false } (fun _ => rfl)

/-- A goroutine that has returned does nothing more. -/
theorem lended_step {s t : LSys} (h : LSys.Step hwm isReorg topic s t) (i : Nat) (ha : (s.part i).phase = .ended) : (t.part i).phase = .ended := by
  have key : ∀ j p, ((s.part j).phase = .ended → p.phase = .ended) → ((s.upd j p).part i).phase = .ended := by
    intro j p hp
    rw [lupd_part]
    split
    · rename_i e; exact hp (e ▸ ha)
    · exact ha
  cases h <;> first | exact ha | skip
  case begin j hj hp => exact key _ _ (by simp [hp])
  case receive j m ms hj hp ht => exact key _ _ (by simp [hp])
  case warmed j m hj hp _ => exact key _ _ (by simp [hp])
  case send j m hj hp _ _ => exact key j { s.part j with phase := .reading } (by simp [hp])
  case finish j hj hp _ _ => exact key _ _ (by simp)
  case closePart k j ms hk hi hs => exact key j { s.part j with todo := ms, live := false } id

theorem lstep_n {s t : LSys} (h : LSys.Step hwm isReorg topic s t) : t.n = s.n := by cases h <;> rfl

/-- One `Close`, called late. -/
theorem lclose_steps {s : LSys} (h : LSys.Steps (Spec.LateClose (LSys.Step hwm isReorg topic)) (.init n start msgs nr 1) s) :
    LClose s ∧ (s.closers ≠ [] → ∀ i, i < s.n → (s.part i).arrived = true) := by
  induction h with
  | refl => exact ⟨.before rfl rfl rfl, by simp [LSys.init]⟩
  | @step t u h1 hst ih =>
    obtain ⟨hst, hlate⟩ := hst
    obtain ⟨ih, ih2⟩ := ih
    have hf := (lfresh_steps (fun _ _ h => h.1) h1).fresh
    have hlive := llive_step hst
    have hend := lended_step hst
    have hn := lstep_n hst
    refine ⟨?_, ?_⟩
    · have keep : u.callers = t.callers → u.closers = t.closers → u.chanOpen = t.chanOpen → LClose u := by
        intro e1 e2 e3
        cases ih with
        | before a b c => exact .before (e1.trans a) (e2.trans b) (e3.trans c)
        | closing i a b c d => exact .closing i (by rw [e1]; exact a) (e2.trans b) (e3.trans c) (fun j hj => hlive j (d j hj))
        | waiting a b c d => exact .waiting (by rw [e1]; exact a) (e2.trans b) (e3.trans c) (fun j hj => hlive j (d j (hn ▸ hj)))
        | closed a b c d => exact .closed (by rw [e1]; exact a) (e2.trans b) (e3.trans c) (fun j hj => hend j (d j (hn ▸ hj)))
      cases hst <;> first | exact keep rfl rfl rfl | skip
      case quit k hd hk =>
        cases ih with
        | before a b c =>
          obtain ⟨rfl, _⟩ := single a hk
          exact .closing 0 ⟨.waiting, by simp [a], by simp⟩ (by simp [b]) c (fun j hj => by omega)
        | closing i a b c d => obtain ⟨x, a, ax⟩ := a; exact absurd (single a hk).2 ax
        | waiting a b c d => obtain ⟨x, a, ax⟩ := a; exact absurd (single a hk).2 ax
        | closed a b c d => obtain ⟨x, a, ax⟩ := a; exact absurd (single a hk).2 ax
      case closePart k i ms hk hi hs =>
        cases ih with
        | before a b c => rw [b] at hk; simp at hk
        | closing i' a b c d =>
          obtain ⟨rfl, e⟩ := single b hk
          simp only [CloserPhase.closing.injEq] at e
          subst e
          refine .closing (i' + 1) a (by simp [b]) c (fun j hj => ?_)
          by_cases hj' : j = i'
          · subst hj'; simp [LSys.upd]
          · have := d j (by omega); simpa [LSys.upd, hj'] using this
        | waiting a b c d => have := (single b hk).2; cases this
        | closed a b c d => have := (single b hk).2; cases this
      case closeWait k i hk hi =>
        cases ih with
        | before a b c => rw [b] at hk; simp at hk
        | closing i' a b c d =>
          obtain ⟨rfl, e⟩ := single b hk
          simp only [CloserPhase.closing.injEq] at e
          subst e
          exact .waiting a (by simp [b]) c (fun j hj => d j (by have : j < t.n := hj; omega))
        | waiting a b c d => have := (single b hk).2; cases this
        | closed a b c d => have := (single b hk).2; cases this
      case closeChan k hk hi ho =>
        cases ih with
        | before a b c => rw [b] at hk; simp at hk
        | closing i' a b c d => have := (single b hk).2; cases this
        | waiting a b c d =>
          obtain ⟨rfl, _⟩ := single b hk
          refine .closed a (by simp [b]) rfl (fun j hj => ?_)
          have h3 := hi j hj
          have h4 := ih2 (by simp [b]) j hj
          have h5 := hf j
          show (t.part j).phase = .ended
          cases hp : (t.part j).phase with
          | fresh => have := h5 hp; simp [LPart.arrived, hp, this] at h4
          | ended => rfl
          | _ => simp [LPart.running, hp] at h3
        | closed a b c d => have := (single b hk).2; cases this
      case closed k hk hi =>
        cases ih with
        | before a b c => have := (single a hk).2; cases this
        | closing i a b c d => obtain ⟨x, a, ax⟩ := a; obtain ⟨rfl, _⟩ := single a hk; exact .closing i ⟨.returned, by simp [a], by simp⟩ b c d
        | waiting a b c d => obtain ⟨x, a, ax⟩ := a; obtain ⟨rfl, _⟩ := single a hk; exact .waiting ⟨.returned, by simp [a], by simp⟩ b c d
        | closed a b c d => obtain ⟨x, a, ax⟩ := a; obtain ⟨rfl, _⟩ := single a hk; exact .closed ⟨.returned, by simp [a], by simp⟩ b c d
    · intro hu i hi
      rw [hn] at hi
      by_cases ht : t.closers = []
      · refine larrived_step hst i (hlate ?_ i hi)
        rw [ht]
        cases hu' : u.closers with
        | nil => exact absurd hu' hu
        | cons => simp
      · exact larrived_step hst i (ih2 ht i hi)

/-- The dispatcher returns when the channel is empty and closed. -/
theorem ldone_steps {R : LSys → LSys → Prop} (hR : ∀ s t, R s t → LSys.Step hwm isReorg topic s t) {s : LSys}
    (h : LSys.Steps R (.init n start msgs nr nc) s) : s.dispatching = false → s.chan = [] ∧ s.chanOpen = false := by
  induction h with
  | refl => simp [LSys.init]
  | @step t u _ hst ih =>
    cases hR _ _ hst <;> first | exact ih | skip
    case send hi hp ho hl => intro hd; have := (ih hd).2; rw [ho] at this; cases this
    case take hd _ _ _ => intro hd'; have : t.dispatching = false := hd'; rw [hd] at this; cases this
    case closeChan hk hi ho => intro hd; have := (ih hd).2; rw [ho] at this; cases this
    case stop hd hc ho => exact fun _ => ⟨hc, ho⟩

/-- **C92** (partial: for one `Close`, called after every partition has delivered a message at or after its start offset; the `C92_refuted` theorems show why):
nothing is sent to the closed channel and it is not closed again. -/
theorem C92_safe_partial {s : LSys} (h : LSys.Steps (Spec.LateClose (LSys.Step hwm isReorg topic)) (.init n start msgs nr 1) s) :
    ¬ (∃ i m, i < s.n ∧ (s.part i).phase = .sending m ∧ s.chanOpen = false) ∧
    ¬ (∃ k : Nat, s.closers[k]? = some CloserPhase.waiting ∧ s.chanOpen = false) := by
  refine ⟨?_, ?_⟩
  · rintro ⟨i, m, hi, hp, ho⟩
    cases (lclose_steps h).1 with
    | before a b c => rw [c] at ho; cases ho
    | closing i a b c d => rw [c] at ho; cases ho
    | waiting a b c d => rw [c] at ho; cases ho
    | closed a b c d => rw [d i hi] at hp; cases hp
  · rintro ⟨k, hk, ho⟩
    cases (lclose_steps h).1 with
    | before a b c => rw [c] at ho; cases ho
    | closing i a b c d => rw [c] at ho; cases ho
    | waiting a b c d => rw [c] at ho; cases ho
    | closed a b c d => have := (single b hk).2; cases this

/-- **C92** (partial, as above; for messages on which the dispatcher does not panic): every execution that goes on while it can ends with `Close` returned, all
goroutines of the consumer that handle messages returned, and everything that was put on the channel handled, in order and without repetition. There are no endless
executions (`lsys_no_endless`). -/
theorem C92_partial {s : LSys} (h : LSys.Steps (Spec.LateClose (LSys.Step hwm isReorg topic)) (.init n start msgs nr 1) s)
    (hkeys : isReorg = false → ∀ i, i < n → ∀ m ∈ msgs i, Spec.isReorgMsg m = false)
    (hstuck : ∀ t, ¬ LSys.Step hwm isReorg topic s t) (hnf : ¬ s.Faulting isReorg topic) :
    s.callers = [.returned] ∧ s.dispatching = false ∧ (∀ i, i < n → (s.part i).phase = .ended) ∧ s.chan = [] ∧ s.chanOpen = false ∧
    ∀ i, (forwarded s.handled i).Sublist (msgs i) := by
  have hv := linv_steps (fun _ _ h => h.1) h
  have hn := hv.n_eq
  obtain ⟨hc, harr⟩ := lclose_steps h
  have hf := (lfresh_steps (fun _ _ h => h.1) h).fresh
  have hmem : ∀ e ∈ s.out, e.1 < n ∧ e.2 ∈ msgs e.1 := by
    intro e he
    have hx : e.2 ∈ forwarded s.out e.1 := by
      unfold forwarded
      exact List.mem_map.mpr ⟨e, List.mem_filter.mpr ⟨he, by simp⟩, rfl⟩
    refine ⟨?_, (hv.parts e.1).sub.subset (by simp [hx])⟩
    by_cases hlt : e.1 < n
    · exact hlt
    · rw [hv.outer e.1 (by omega)] at hx; simp at hx
  have htake : s.dispatching = true → s.chan = [] := fun hd =>
    ltake hnf hd (fun e he hr => hkeys hr e.1 (hmem e (by simp [LSys.out, he])).1 e.2 (hmem e (by simp [LSys.out, he])).2) hstuck
  have hdisp : s.chanOpen = true → s.dispatching = true := by
    intro ho
    cases hd : s.dispatching with
    | true => rfl
    | false => have := hv.runs hd; rw [ho] at this; cases this
  have hsub : ∀ i, (forwarded s.handled i).Sublist (msgs i) := by
    intro i
    refine List.Sublist.trans ?_ (hv.parts i).sub
    unfold LSys.out
    rw [show forwarded (s.handled ++ s.chan) i = forwarded s.handled i ++ forwarded s.chan i by simp [forwarded], List.append_assoc, List.append_assoc]
    exact List.sublist_append_left _ _
  cases hc with
  | before a b c => exact absurd (.quit (k := 0) (hdisp c) (by simp [a])) (hstuck _)
  | closing i a b c d =>
    by_cases hi : i < s.n
    · exact absurd (.closePart (k := 0) (by simp [b]) hi (List.Sublist.refl _)) (hstuck _)
    · exact absurd (.closeWait (k := 0) (i := i) (by simp [b]) (by omega)) (hstuck _)
  | waiting a b c d =>
    have hd := hdisp c
    have hchan := htake hd
    have harr := harr (by simp [b])
    refine absurd (.closeChan (k := 0) (by simp [b]) (fun i hi => ?_) c) (hstuck _)
    cases hp : (s.part i).phase with
    | fresh => simp [LPart.running, hp]
    | ended => simp [LPart.running, hp]
    | warming m => exact absurd (.warmed hi hp harr) (hstuck _)
    | sending m => exact absurd (.send hi hp c (by simp [hchan, messagesCap])) (hstuck _)
    | reading =>
      cases ht : (s.part i).todo with
      | nil => exact absurd (.finish hi hp ht (d i hi)) (hstuck _)
      | cons m ms => exact absurd (.receive hi hp ht) (hstuck _)
  | closed a b c d =>
    have hd : s.dispatching = false := by
      cases hd : s.dispatching with
      | false => rfl
      | true => exact absurd (.stop hd (htake hd) c) (hstuck _)
    obtain ⟨x, a, ax⟩ := a
    have hret : x = .returned := by
      cases x with
      | soon => exact absurd rfl ax
      | returned => rfl
      | waiting => exact absurd (.closed (k := 0) (by simp [a]) (fun i hi => by simp [LPart.running, d i hi])) (hstuck _)
    refine ⟨by rw [a, hret], hd, fun i hi => d i (hn ▸ hi), ?_, c, hsub⟩
    exact (ldone_steps (fun _ _ h => h.1) h hd).1

/-- **C92**: at no time do more than 512 messages wait between the partition goroutines and the dispatcher, so `Close` has at most these left to be handled. -/
theorem C92_waiting {nc : Nat} {s : LSys} (h : LSys.Steps (LSys.Step hwm isReorg topic) (.init n start msgs nr nc) s) : s.chan.length ≤ 512 := by
  induction h with
  | refl => exact Nat.zero_le _
  | step _ hst ih =>
    cases hst with
    | send _ _ _ hl => simp only [List.length_append, List.length_singleton]; exact hl
    | take _ hc => rw [hc] at ih; simp only [List.length_cons] at ih ⊢; omega
    | _ => exact ih

/-- **C92 fails** while a partition is empty: the other goroutine waits for it in `warmupWg.Wait()` and never returns; `Close` hangs in `kc.shutdownWg.Wait()`. -/
theorem C92_refuted_cold : ∃ s, LSys.Steps (LSys.Step exHwm false (str "t")) (.init 2 (fun _ => 5) (fun i => if i = 0 then [exBeat 5] else []) 0 1) s ∧
    (∀ t, ¬ LSys.Step exHwm false (str "t") s t) ∧ ¬ s.Faulting false (str "t") ∧ s.callers = [.waiting] := by
  have h0 : LSys.Steps (LSys.Step exHwm false (str "t")) (.init 2 (fun _ => 5) (fun i => if i = 0 then [exBeat 5] else []) 0 1) _ := .refl
  have h1 := h0.step (.begin (i := 0) (by decide) rfl)
  have h2 := h1.step (.receive (i := 0) (by decide) rfl rfl)
  have h3 := h2.step (.begin (i := 1) (by decide) rfl)
  have h4 := h3.step (.quit (k := 0) rfl rfl)
  have h5 := h4.step (.closePart (k := 0) (i := 0) rfl (by decide) (List.Sublist.refl _))
  have h6 := h5.step (.closePart (k := 0) (i := 1) rfl (by decide) (List.Sublist.refl _))
  have h7 := h6.step (.closeWait (k := 0) (i := 2) rfl (Nat.le_refl 2))
  have h8 := h7.step (.finish (i := 1) (by decide) rfl rfl rfl)
  refine ⟨_, h8, ?_, ?_, rfl⟩
  · refine lsys_stuck (two_part (.inr (.inl ⟨⟨_, rfl⟩, 1, by decide, rfl⟩)) (.inr (.inr rfl))) rfl (.inr (.inl ⟨rfl, 1, by decide, rfl⟩)) ?_ ?_ ?_ ?_ (fun _ => rfl)
    · intro k hk; have : ([] : List ReaderPhase)[k]? = some .soon := hk; simp at this
    · intro _ k hk
      have : [CallerPhase.waiting][k]? = some .soon := hk
      cases k <;> simp at this
    · intro k hk; exact ⟨0, by decide, rfl⟩
    · intro k c hk
      have : [CloserPhase.waiting][k]? = some c := hk
      cases k with
      | zero => simp at this; exact .inr ⟨this.symm, 0, by decide, rfl⟩
      | succ k => simp at this
  · rintro (⟨i, m, _, _, h⟩ | ⟨k, _, _, h⟩ | ⟨i, m, rest, f, _, h, _⟩)
    · cases h
    · cases h
    · cases h

/-- **C92 fails** when `Close` comes early: `kc.shutdownWg` is still zero because the partition goroutine has not begun (`transports/kafka.go:582`), the channel is closed,
and the goroutine sends to it: a panic. -/
theorem C92_refuted_early : ∃ s, LSys.Steps (LSys.Step exHwm false (str "t")) (.init 1 (fun _ => 5) (fun _ => [exBeat 5]) 0 1) s ∧ s.Faulting false (str "t") := by
  have h0 : LSys.Steps (LSys.Step exHwm false (str "t")) (.init 1 (fun _ => 5) (fun _ => [exBeat 5]) 0 1) _ := .refl
  have h1 := h0.step (.quit (k := 0) rfl rfl)
  have h2 := h1.step (.closePart (k := 0) (i := 0) rfl (by decide) (List.Sublist.refl _))
  have h3 := h2.step (.closeWait (k := 0) (i := 1) rfl (Nat.le_refl 1))
  have h4 := h3.step (.closeChan (k := 0) rfl (one_part rfl) rfl)
  have h5 := h4.step (.begin (i := 0) (by decide) rfl)
  have h6 := h5.step (.receive (i := 0) (by decide) rfl rfl)
  have h7 := h6.step (.warmed (i := 0) (m := exBeat 5) (by decide) rfl (one_part rfl))
  exact ⟨_, h7, .inl ⟨0, exBeat 5, by decide, rfl, rfl⟩⟩

/-- Nothing panics when all is over. -/
theorem ended_fine {s : LSys} (hend : ∀ i, i < s.n → (s.part i).phase = .ended) (hcl : ∀ (k : Nat) c, s.closers[k]? = some c → c = .closed)
    (hc : s.chan = []) : ¬ s.Faulting isReorg topic := by
  rintro (⟨i, m, hi, h, _⟩ | ⟨k, h, _, _⟩ | ⟨i, m, rest, f, _, h, _⟩)
  · rw [hend i hi] at h; cases h
  · have := hcl k _ h; cases this
  · rw [hc] at h; cases h

/-- **C92 fails** for a second `Close`: after the first one the dispatcher has returned and nobody receives from `kc.quit`. The partition is warm. -/
theorem C92_refuted_again : ∃ s, LSys.Steps (Spec.LateClose (LSys.Step exHwm false (str "t"))) (.init 1 (fun _ => 5) (fun _ => [exBeat 5]) 0 2) s ∧
    (∀ t, ¬ LSys.Step exHwm false (str "t") s t) ∧ ¬ s.Faulting false (str "t") ∧ s.callers = [.returned, .soon] := by
  have step : ∀ {s t}, LSys.Steps (Spec.LateClose (LSys.Step exHwm false (str "t"))) (.init 1 (fun _ => 5) (fun _ => [exBeat 5]) 0 2) s →
      LSys.Step exHwm false (str "t") s t → t.closers.length ≤ s.closers.length ∨ (∀ i, i < s.n → (s.part i).arrived = true) →
      LSys.Steps (Spec.LateClose (LSys.Step exHwm false (str "t"))) (.init 1 (fun _ => 5) (fun _ => [exBeat 5]) 0 2) t :=
    fun h h1 h2 => h.step ⟨h1, fun hl => h2.elim (fun h2 => absurd hl (by omega)) id⟩
  have h0 : LSys.Steps (Spec.LateClose (LSys.Step exHwm false (str "t"))) (.init 1 (fun _ => 5) (fun _ => [exBeat 5]) 0 2) _ := .refl
  have h1 := step h0 (.begin (i := 0) (by decide) rfl) (.inl (by decide))
  have h2 := step h1 (.receive (i := 0) (by decide) rfl rfl) (.inl (by decide))
  have h3 := step h2 (.warmed (i := 0) (m := exBeat 5) (by decide) rfl (one_part rfl)) (.inl (by decide))
  have h4 := step h3 (.send (i := 0) (m := exBeat 5) (by decide) rfl rfl (by decide)) (.inl (by decide))
  have h5 := step h4 (.take (a := .heartbeatGauge) (wg := 0) rfl rfl rfl (by simp)) (.inl (by decide))
  have h6 := step h5 (.quit (k := 0) rfl rfl) (.inr (one_part rfl))
  have h7 := step h6 (.closePart (k := 0) (i := 0) rfl (by decide) (List.Sublist.refl _)) (.inl (by decide))
  have h8 := step h7 (.closeWait (k := 0) (i := 1) rfl (Nat.le_refl 1)) (.inl (by decide))
  have h9 := step h8 (.finish (i := 0) (by decide) rfl rfl rfl) (.inl (by decide))
  have h10 := step h9 (.closeChan (k := 0) rfl (one_part rfl) rfl) (.inl (by decide))
  have h11 := step h10 (.stop rfl rfl rfl) (.inl (by decide))
  have h12 := step h11 (.closed (k := 0) rfl (one_part rfl)) (.inl (by decide))
  have h13 := step h12 (.caughtUp rfl (one_part rfl)) (.inl (by decide))
  refine ⟨_, h13, ?_, ?_, rfl⟩
  · refine lsys_stuck (one_part (.inr (.inr rfl))) rfl (.inr (.inr ⟨rfl, rfl⟩)) ?_ ?_ ?_ ?_ ?_
    · intro k hk; have : ([] : List ReaderPhase)[k]? = some .soon := hk; simp at this
    · intro h; cases h
    · intro k hk
      exact absurd rfl (two_list (P := fun c => c ≠ CallerPhase.waiting) (a := .returned) (b := .soon) (by simp) (by simp) k _ hk)
    · intro k c hk; exact .inl (single (x := CloserPhase.closed) rfl hk).2.symm
    · intro h; cases h
  · exact ended_fine (one_part rfl) (fun k c hk => (single (x := CloserPhase.closed) rfl hk).2.symm) rfl

/-- **C92 fails** for two goroutines that call `Close` at the same time: both are heard, the channel is closed twice: a panic. -/
theorem C92_refuted_twice : ∃ s, LSys.Steps (Spec.LateClose (LSys.Step exHwm false (str "t"))) (.init 1 (fun _ => 5) (fun _ => [exBeat 5]) 0 2) s ∧
    s.Faulting false (str "t") := by
  have step : ∀ {s t}, LSys.Steps (Spec.LateClose (LSys.Step exHwm false (str "t"))) (.init 1 (fun _ => 5) (fun _ => [exBeat 5]) 0 2) s →
      LSys.Step exHwm false (str "t") s t → t.closers.length ≤ s.closers.length ∨ (∀ i, i < s.n → (s.part i).arrived = true) →
      LSys.Steps (Spec.LateClose (LSys.Step exHwm false (str "t"))) (.init 1 (fun _ => 5) (fun _ => [exBeat 5]) 0 2) t :=
    fun h h1 h2 => h.step ⟨h1, fun hl => h2.elim (fun h2 => absurd hl (by omega)) id⟩
  have h0 : LSys.Steps (Spec.LateClose (LSys.Step exHwm false (str "t"))) (.init 1 (fun _ => 5) (fun _ => [exBeat 5]) 0 2) _ := .refl
  have h1 := step h0 (.begin (i := 0) (by decide) rfl) (.inl (by decide))
  have h2 := step h1 (.receive (i := 0) (by decide) rfl rfl) (.inl (by decide))
  have h3 := step h2 (.warmed (i := 0) (m := exBeat 5) (by decide) rfl (one_part rfl)) (.inl (by decide))
  have h4 := step h3 (.send (i := 0) (m := exBeat 5) (by decide) rfl rfl (by decide)) (.inl (by decide))
  have h5 := step h4 (.quit (k := 0) rfl rfl) (.inr (one_part rfl))
  have h6 := step h5 (.quit (k := 1) rfl rfl) (.inr (one_part rfl))
  have h7 := step h6 (.closePart (k := 0) (i := 0) rfl (by decide) (List.Sublist.refl _)) (.inl (by decide))
  have h8 := step h7 (.closeWait (k := 0) (i := 1) rfl (Nat.le_refl 1)) (.inl (by decide))
  have h9 := step h8 (.closePart (k := 1) (i := 0) rfl (by decide) (List.Sublist.refl _)) (.inl (by decide))
  have h10 := step h9 (.closeWait (k := 1) (i := 1) rfl (Nat.le_refl 1)) (.inl (by decide))
  have h11 := step h10 (.finish (i := 0) (by decide) rfl rfl rfl) (.inl (by decide))
  have h12 := step h11 (.closeChan (k := 0) rfl (one_part rfl) rfl) (.inl (by decide))
  exact ⟨_, h12, .inr (.inl ⟨1, rfl, one_part rfl, rfl⟩)⟩

/-- A case that meets the hypotheses of `C92_partial`: the execution ends with `Close` returned. -/
example : ∃ s, LSys.Steps (Spec.LateClose (LSys.Step exHwm false (str "t"))) (.init 1 (fun _ => 4) exOne 0 1) s ∧ s.callers = [.returned] ∧
    s.handled = [(0, exBeat 4), (0, exBeat 5)] ∧ s.dispatching = false := by
  have step : ∀ {s t}, LSys.Steps (Spec.LateClose (LSys.Step exHwm false (str "t"))) (.init 1 (fun _ => 4) exOne 0 1) s →
      LSys.Step exHwm false (str "t") s t → t.closers.length ≤ s.closers.length ∨ (∀ i, i < s.n → (s.part i).arrived = true) →
      LSys.Steps (Spec.LateClose (LSys.Step exHwm false (str "t"))) (.init 1 (fun _ => 4) exOne 0 1) t :=
    fun h h1 h2 => h.step ⟨h1, fun hl => h2.elim (fun h2 => absurd hl (by omega)) id⟩
  have h0 : LSys.Steps (Spec.LateClose (LSys.Step exHwm false (str "t"))) (.init 1 (fun _ => 4) exOne 0 1) _ := .refl
  have h1 := step h0 (.begin (i := 0) (by decide) rfl) (.inl (by decide))
  have h2 := step h1 (.receive (i := 0) (by decide) rfl rfl) (.inl (by decide))
  have h3 := step h2 (.warmed (i := 0) (m := exBeat 4) (by decide) rfl (one_part rfl)) (.inl (by decide))
  have h4 := step h3 (.send (i := 0) (m := exBeat 4) (by decide) rfl rfl (by decide)) (.inl (by decide))
  have h5 := step h4 (.take (a := .heartbeatGauge) (wg := 0) rfl rfl rfl (by simp)) (.inl (by decide))
  have h6 := step h5 (.quit (k := 0) rfl rfl) (.inr (one_part rfl))
  have h7 := step h6 (.closePart (k := 0) (i := 0) rfl (by decide) (List.Sublist.refl _)) (.inl (by decide))
  have h8 := step h7 (.receive (i := 0) (by decide) rfl rfl) (.inl (by decide))
  have h9 := step h8 (.send (i := 0) (m := exBeat 5) (by decide) rfl rfl (by decide)) (.inl (by decide))
  have h10 := step h9 (.closeWait (k := 0) (i := 1) rfl (Nat.le_refl 1)) (.inl (by decide))
  have h11 := step h10 (.finish (i := 0) (by decide) rfl rfl rfl) (.inl (by decide))
  have h12 := step h11 (.closeChan (k := 0) rfl (one_part rfl) rfl) (.inl (by decide))
  have h13 := step h12 (.take (a := .heartbeatGauge) (wg := 0) rfl rfl rfl (by simp)) (.inl (by decide))
  have h14 := step h13 (.stop rfl rfl rfl) (.inl (by decide))
  have h15 := step h14 (.closed (k := 0) rfl (one_part rfl)) (.inl (by decide))
  exact ⟨_, h15, rfl, rfl, rfl⟩

end Verif
