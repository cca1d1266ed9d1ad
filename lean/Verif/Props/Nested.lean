import Verif.Model.Nested
import Verif.Props.KafkaClose
import Verif.Props.MuxConsumer
/-!
# C107: reorg topics
-/
namespace Verif
open Spec

/-- The content of a reorg topic as the protocol has it (`SPEC.md`): the announcement, blocks, the end. -/
def Spec.ReorgTopic (l : List RMsg) : Prop :=
  ∃ r body c, l = r :: (body ++ [c]) ∧ Spec.isReorgMsg r = true ∧ Spec.isReorgEnd c = true ∧
    ∀ m ∈ body, Spec.isReorgMsg m = false ∧ Spec.isReorgEnd m = false ∧ m.key.head? ≠ some PingType

/-- A step of an inner consumer with a slow timer; it is not closed before it is ready. -/
def Spec.InnerStep (hwm : Nat → RMsg → Int) (u v : LSys) : Prop :=
  Spec.SlowTimer (LSys.Step hwm true []) u v ∧ (v.callers = u.callers ∨ u.readers = [.released])

theorem LSys.Steps.mono {R S : LSys → LSys → Prop} (hRS : ∀ s t, R s t → S s t) {s t : LSys} (h : LSys.Steps R s t) : LSys.Steps S s t := by
  induction h with
  | refl => exact .refl
  | step _ hst ih => exact .step ih (hRS _ _ hst)

theorem one_forwarded {out : List (Nat × RMsg)} (h : ∀ i, 1 ≤ i → forwarded out i = []) : forwarded out 0 = out.map Prod.snd := by
  unfold forwarded
  rw [List.filter_eq_self.mpr]
  intro e he
  by_cases h0 : e.1 = 0
  · simp [h0]
  · have := h e.1 (by omega)
    unfold forwarded at this
    have hm : e ∈ out.filter (fun x => decide (x.1 = e.1)) := List.mem_filter.mpr ⟨he, by simp⟩
    rw [List.map_eq_nil_iff] at this
    rw [this] at hm
    simp at hm

theorem end_not_reorg {m : RMsg} (h : Spec.isReorgMsg m = true) : Spec.isReorgEnd m = false := by
  simp only [Spec.isReorgMsg, Spec.isReorgEnd, decide_eq_true_eq, decide_eq_false_iff_not] at h ⊢
  rw [h]; decide

/-- In a reorg topic the number of open reorgs falls to zero only at the end. -/
theorem reorgTopic_prefix {l l' : List RMsg} (ht : Spec.ReorgTopic (l ++ l')) (hl : l ≠ [])
    (hc : l.countP Spec.isReorgEnd = l.countP Spec.isReorgMsg) : l' = [] := by
  obtain ⟨r, body, c, e, hr, hcc, hb⟩ := ht
  cases l with
  | nil => exact absurd rfl hl
  | cons x l =>
    simp only [List.cons_append, List.cons.injEq] at e
    obtain ⟨rfl, e⟩ := e
    rcases List.eq_nil_or_concat l' with rfl | ⟨q, y, rfl⟩
    · rfl
    · exfalso
      rw [List.concat_eq_append, ← List.append_assoc] at e
      have e := (List.append_inj' e rfl).1
      have h1 : l.countP Spec.isReorgEnd = 0 := by
        rw [List.countP_eq_zero]; intro m hm; simp [(hb m (by rw [← e]; simp [hm])).2.1]
      have h2 : l.countP Spec.isReorgMsg = 0 := by
        rw [List.countP_eq_zero]; intro m hm; simp [(hb m (by rw [← e]; simp [hm])).1]
      rw [List.countP_cons, List.countP_cons, h1, h2, hr, end_not_reorg hr] at hc
      simp at hc

section inner
variable {hwm : Nat → RMsg → Int} {start : Nat → Int} {msgs : Nat → List RMsg}

/-- What holds of an inner consumer for a topic of one partition. -/
structure InnerInv (l : List RMsg) (u : LSys) : Prop where
  soon : u.closers = [] → u.callers = [.soon]
  late : u.closers ≠ [] → u.readers = [.released]
  some : u.rdy ≠ .parts → u.rdy ≠ .timer → u.handled ≠ []
  all : u.rdy ≠ .parts → u.rdy ≠ .timer → u.rdy ≠ .reorgs →
    u.handled.map Prod.snd = l ∧ u.chan = [] ∧ (u.part 0).todo = [] ∧ (u.part 0).phase.held = []

theorem inner_step {u v : LSys} (h : Spec.InnerStep hwm u v) : LSys.Step hwm true [] u v := h.1.1

/-- While nobody closes the consumer everything is somewhere. -/
theorem inner_whole {u : LSys} (hv : LInv hwm 1 start msgs u) (hc : u.closers = []) :
    u.handled.map Prod.snd ++ (u.chan.map Prod.snd ++ (u.part 0).phase.held ++ (u.part 0).todo) = msgs 0 := by
  have h := ((hv.parts 0).whole (by simp [hc])).1
  rw [one_forwarded hv.outer] at h
  rw [← h]
  simp [LSys.out]

theorem innerInv_steps (ht : Spec.ReorgTopic (msgs 0)) {u : LSys} (h : LSys.Steps (Spec.InnerStep hwm) (.init 1 start msgs 1 1) u) :
    InnerInv (msgs 0) u := by
  induction h with
  | refl => exact ⟨fun _ => rfl, fun h => absurd rfl h, fun h => absurd rfl h, fun h => absurd rfl h⟩
  | @step t u h1 hst ih =>
    have hv := linv_steps (fun _ _ h => inner_step h) h1
    have hlen := lreaders_length (fun _ _ h => inner_step h) h1
    have hwg := (lwg_steps (h1.mono (fun _ _ h => inner_step h))).2 rfl
    obtain ⟨⟨hst, hslow⟩, hcl⟩ := hst
    have hrdy : t.closers ≠ [] → t.rdy = .sent ∨ t.rdy = .finished := fun h => hv.free ⟨0, by rw [ih.late h]; rfl⟩
    cases hst <;> first | exact ⟨ih.soon, ih.late, ih.some, ih.all⟩ | skip
    case begin i hi hp =>
      refine ⟨ih.soon, ih.late, ih.some, fun a b c => ?_⟩
      obtain ⟨e1, e2, e3, e4⟩ := ih.all a b c
      have : i = 0 := by have := hv.n_eq; omega
      subst this
      exact ⟨e1, e2, by simpa [LSys.upd] using e3, by simp [LSys.upd, LPhase.held]⟩
    case receive i m ms hi hp htodo =>
      refine ⟨ih.soon, ih.late, ih.some, fun a b c => ?_⟩
      obtain ⟨e1, e2, e3, e4⟩ := ih.all a b c
      have : i = 0 := by have := hv.n_eq; omega
      subst this
      rw [htodo] at e3; cases e3
    case warmed i m hi hp harr =>
      refine ⟨ih.soon, ih.late, ih.some, fun a b c => ?_⟩
      obtain ⟨e1, e2, e3, e4⟩ := ih.all a b c
      have : i = 0 := by have := hv.n_eq; omega
      subst this
      rw [hp] at e4; cases e4
    case send i m hi hp ho hl =>
      refine ⟨ih.soon, ih.late, ih.some, fun a b c => ?_⟩
      obtain ⟨e1, e2, e3, e4⟩ := ih.all a b c
      have : i = 0 := by have := hv.n_eq; omega
      subst this
      rw [hp] at e4; cases e4
    case finish i hi hp htodo hlive =>
      refine ⟨ih.soon, ih.late, ih.some, fun a b c => ?_⟩
      obtain ⟨e1, e2, e3, e4⟩ := ih.all a b c
      have : i = 0 := by have := hv.n_eq; omega
      subst this
      exact ⟨e1, e2, by simpa [LSys.upd] using e3, by simp [LSys.upd, LPhase.held]⟩
    case caughtUp hr hd =>
      refine ⟨ih.soon, ih.late, ?_, ?_⟩ <;> intro a b <;> simp at b
    case tick hr hd =>
      refine ⟨ih.soon, ih.late, fun _ _ => ?_, fun _ _ c => absurd rfl c⟩
      obtain ⟨hch, hno⟩ := hslow hr rfl
      have hdone := hv.caught (by rw [hr]; simp) 0 (by omega)
      obtain ⟨m, hm, _⟩ := (hv.parts 0).doneW hdone
      have hlook : (t.part 0).phase.looked = [] := by
        cases hp : (t.part 0).phase with
        | sending m => exact absurd hp (hno 0 (by rw [hv.n_eq]; omega) m)
        | _ => rfl
      rw [hlook, List.append_nil, one_forwarded hv.outer, LSys.out, hch, List.append_nil] at hm
      intro e
      have e : t.handled = [] := e
      rw [e] at hm
      simp at hm
    case reorgsDone hr hw =>
      refine ⟨ih.soon, ih.late, fun _ _ => ih.some (by rw [hr]; simp) (by rw [hr]; simp), fun _ _ _ => ?_⟩
      have hc : t.closers = [] := by
        cases hc : t.closers with
        | nil => rfl
        | cons a b => have := hrdy (by simp [hc]); rw [hr] at this; simp at this
      have hne := ih.some (by rw [hr]; simp) (by rw [hr]; simp)
      have hwhole := inner_whole hv hc
      have hz : t.handled.countP (fun e => Spec.isReorgEnd e.2) = t.handled.countP (fun e => Spec.isReorgMsg e.2) := by omega
      have := reorgTopic_prefix (l := t.handled.map Prod.snd) (by rw [hwhole]; exact ht) (by simpa using hne)
        (by rw [List.countP_map, List.countP_map]; exact hz)
      rw [this, List.append_nil] at hwhole
      simp only [List.append_eq_nil_iff, List.map_eq_nil_iff] at this
      exact ⟨hwhole, this.1.1, this.2, this.1.2⟩
    case ready k hr hk =>
      refine ⟨ih.soon, fun hc => ?_, fun _ _ => ih.some (by rw [hr]; simp) (by rw [hr]; simp), fun _ _ _ => ih.all (by rw [hr]; simp) (by rw [hr]; simp) (by rw [hr]; simp)⟩
      have := hrdy hc
      rw [hr] at this; simp at this
    case forget hr =>
      exact ⟨ih.soon, ih.late, fun _ _ => ih.some (by rw [hr]; simp) (by rw [hr]; simp), fun _ _ _ => ih.all (by rw [hr]; simp) (by rw [hr]; simp) (by rw [hr]; simp)⟩
    case ask k hk =>
      refine ⟨ih.soon, fun hc => ?_, ih.some, ih.all⟩
      rw [ih.late hc] at hk
      cases k <;> simp at hk
    case take i m rest a wg hd hc ha hk =>
      refine ⟨ih.soon, ih.late, fun _ _ => by simp, fun a b c => ?_⟩
      obtain ⟨e1, e2, e3, e4⟩ := ih.all a b c
      rw [hc] at e2; cases e2
    case quit k hd hk =>
      refine ⟨fun h => by simp at h, fun _ => ?_, ih.some, ih.all⟩
      refine hcl.resolve_left (fun e => ?_)
      have e : t.callers.set k .waiting = t.callers := e
      have := (List.getElem?_eq_some_iff.mp hk).1
      have h2 : (t.callers.set k .waiting)[k]? = some .waiting := by simp [this]
      rw [e, hk] at h2
      cases h2
    case closePart k i ms hk hi hs =>
      have hne : t.closers ≠ [] := by intro e; rw [e] at hk; simp at hk
      refine ⟨fun h => ?_, fun _ => ih.late hne, ih.some, fun a b c => ?_⟩
      · simp only [List.set_eq_nil_iff] at h; exact absurd h hne
      obtain ⟨e1, e2, e3, e4⟩ := ih.all a b c
      have : i = 0 := by have := hv.n_eq; omega
      subst this
      rw [e3] at hs
      exact ⟨e1, e2, by simpa [LSys.upd] using List.sublist_nil.mp hs, by simpa [LSys.upd] using e4⟩
    case closeWait k i hk hi =>
      have hne : t.closers ≠ [] := by intro e; rw [e] at hk; simp at hk
      refine ⟨fun h => ?_, fun _ => ih.late hne, ih.some, ih.all⟩
      simp only [List.set_eq_nil_iff] at h; exact absurd h hne
    case closeChan k hk hi ho =>
      have hne : t.closers ≠ [] := by intro e; rw [e] at hk; simp at hk
      refine ⟨fun h => ?_, fun _ => ih.late hne, ih.some, ih.all⟩
      simp only [List.set_eq_nil_iff] at h; exact absurd h hne
    case closed k hk hi =>
      refine ⟨fun h => ?_, ih.late, ih.some, ih.all⟩
      rw [ih.soon h] at hk
      cases k <;> simp at hk

/-- When `Close` has been called everything has been handled. -/
theorem inner_closed (ht : Spec.ReorgTopic (msgs 0)) {u : LSys} (h : LSys.Steps (Spec.InnerStep hwm) (.init 1 start msgs 1 1) u)
    (hc : u.callers ≠ [.soon]) : u.handled.map Prod.snd = msgs 0 ∧ u.chan = [] ∧ (u.part 0).todo = [] ∧ (u.part 0).phase.held = [] := by
  have hi := innerInv_steps ht h
  have hv := linv_steps (fun _ _ h => inner_step h) h
  have hne : u.closers ≠ [] := fun e => hc (hi.soon e)
  have := hv.free ⟨0, by rw [hi.late hne]; rfl⟩
  rcases this with e | e <;> exact hi.all (by rw [e]; simp) (by rw [e]; simp) (by rw [e]; simp)

/-- `Close` is called late. -/
theorem inner_late (ho : ∀ m ∈ msgs 0, start 0 ≤ m.offset) {u : LSys} (h : LSys.Steps (Spec.InnerStep hwm) (.init 1 start msgs 1 1) u) :
    LSys.Steps (Spec.LateClose (LSys.Step hwm true [])) (.init 1 start msgs 1 1) u := by
  induction h with
  | refl => exact .refl
  | @step t u h1 hst ih =>
    refine .step ih ⟨inner_step hst, fun hlt => ?_⟩
    have hv := linv_steps (fun _ _ h => inner_step h) h1
    have hrel : t.readers = [.released] := by
      refine hst.2.resolve_left (fun e => ?_)
      cases inner_step hst <;> first | exact absurd hlt (Nat.lt_irrefl _) | (simp at hlt; done) | skip
      case quit k hd hk =>
        have e : t.callers.set k .waiting = t.callers := e
        have := (List.getElem?_eq_some_iff.mp hk).1
        have h2 : (t.callers.set k .waiting)[k]? = some .waiting := by simp [this]
        rw [e, hk] at h2
        cases h2
    have hr := hv.free ⟨0, by rw [hrel]; rfl⟩
    intro i hi
    have : i = 0 := by have := hv.n_eq; omega
    subst this
    have hdone := hv.caught (by rcases hr with e | e <;> rw [e] <;> simp) 0 (by omega)
    obtain ⟨m, hm, _⟩ := (hv.parts 0).doneW hdone
    have hm' : m ∈ forwarded t.out 0 ++ (t.part 0).phase.held := by
      rcases List.mem_append.mp hm with h | h
      · exact List.mem_append_left _ h
      · refine List.mem_append_right _ ?_
        cases hp : (t.part 0).phase <;> rw [hp] at h <;> simp [LPhase.looked, LPhase.held] at h ⊢
        exact h
    cases hx : (t.part 0).arrived with
    | true => rfl
    | false =>
      have h2 := (hv.parts 0).cold hx m hm'
      have h3 := ho m ((hv.parts 0).sub.subset (List.mem_append_left _ hm'))
      omega

/-- What an inner consumer has handled is in the topic. -/
theorem inner_mem {u : LSys} (hv : LInv hwm 1 start msgs u) {e : Nat × RMsg} (he : e ∈ u.out) : e.2 ∈ msgs 0 := by
  refine (hv.parts 0).sub.subset (List.mem_append_left _ (List.mem_append_left _ ?_))
  rw [one_forwarded hv.outer]
  exact List.mem_map_of_mem he

theorem reorgTopic_ping {l : List RMsg} (ht : Spec.ReorgTopic l) : ∀ m ∈ l, m.key.head? ≠ some PingType := by
  obtain ⟨r, body, c, rfl, hr, hc, hb⟩ := ht
  intro m hm
  simp only [List.mem_cons, List.mem_append, List.not_mem_nil, or_false] at hm
  simp only [Spec.isReorgMsg, Spec.isReorgEnd, decide_eq_true_eq] at hr hc
  rcases hm with rfl | hm | rfl
  · rw [hr]; decide
  · exact (hb m hm).2.2
  · rw [hc]; decide

/-- No goroutine of an inner consumer panics. -/
theorem inner_safe (ht : Spec.ReorgTopic (msgs 0)) (ho : ∀ m ∈ msgs 0, start 0 ≤ m.offset) {u : LSys}
    (h : LSys.Steps (Spec.InnerStep hwm) (.init 1 start msgs 1 1) u) : ¬ u.Faulting true [] ∧ ∀ e ∈ u.handled, e.2.key.head? ≠ some PingType := by
  have hv := linv_steps (fun _ _ h => inner_step h) h
  have hwg := (lwg_steps (h.mono (fun _ _ h => inner_step h))).2 rfl
  have hi := innerInv_steps ht h
  obtain ⟨s1, s2⟩ := C92_safe_partial (inner_late ho h)
  refine ⟨?_, fun e he => reorgTopic_ping ht _ (inner_mem hv (by simp [LSys.out, he]))⟩
  rintro (⟨i, m, a, b, c⟩ | ⟨k, a, b, c⟩ | ⟨i, m, rest, f, hd, hch, hx⟩)
  · exact s1 ⟨i, m, a, b, c⟩
  · exact s2 ⟨k, a, c⟩
  · have hc : u.closers = [] := by
      cases hc : u.closers with
      | nil => rfl
      | cons x y =>
        have : u.callers ≠ [.soon] := by
          intro e
          cases (lclose_steps (inner_late ho h)).1 with
          | before a b c => rw [b] at hc; cases hc
          | closing i a b c d => obtain ⟨z, a, az⟩ := a; rw [a] at e; simp at e; exact az e
          | waiting a b c d => obtain ⟨z, a, az⟩ := a; rw [a] at e; simp at e; exact az e
          | closed a b c d => obtain ⟨z, a, az⟩ := a; rw [a] at e; simp at e; exact az e
        have := (inner_closed ht h this).2.1
        rw [hch] at this; cases this
    have hwhole := inner_whole hv hc
    rw [hch] at hwhole
    unfold KC.dispatch at hx
    cases hkey : m.key with
    | nil => rw [hkey] at hx; simp at hx
    | cons b r =>
      rw [hkey] at hx
      simp only at hx
      split at hx
      · simp at hx
      · split at hx
        · simp at hx
        · split at hx
          · rename_i hb
            cases hw : u.wg with
            | succ w => rw [hw] at hx; simp at hx
            | zero =>
              have hz : u.handled.countP (fun e => Spec.isReorgEnd e.2) = u.handled.countP (fun e => Spec.isReorgMsg e.2) := by omega
              cases hh : u.handled with
              | nil =>
                rw [hh] at hwhole
                obtain ⟨r', body, c, e, hr, _⟩ := ht
                rw [e] at hwhole
                simp only [List.map_nil, List.map_cons, List.nil_append, List.cons_append, List.cons.injEq] at hwhole
                rw [← hwhole.1] at hr
                simp only [Spec.isReorgMsg, hkey, List.head?_cons, Option.some.injEq, decide_eq_true_eq] at hr
                rw [hb] at hr
                exact absurd hr (by decide)
              | cons x y =>
                have := reorgTopic_prefix (l := u.handled.map Prod.snd) (by rw [hwhole]; exact ht) (by simp [hh])
                  (by rw [List.countP_map, List.countP_map]; exact hz)
                simp at this
          · simp at hx

/-- Leaving out the goroutine that will call `Close`. -/
theorem inner_uncalled {u : LSys} (ht : Spec.ReorgTopic (msgs 0)) (h : LSys.Steps (Spec.InnerStep hwm) (.init 1 start msgs 1 1) u) :
    u.closers = [] → LSys.Steps (LSys.Step hwm true []) (.init 1 start msgs 1 0) { u with callers := [] } := by
  induction h with
  | refl => exact fun _ => .refl
  | @step t u h1 hst ih =>
    intro hc
    have hi := innerInv_steps ht h1
    cases inner_step hst
    case begin i hi hp => exact .step (ih hc) (.begin (i := i) hi hp)
    case receive i m ms hi hp htodo => exact .step (ih hc) (.receive (i := i) hi hp htodo)
    case warmed i m hi hp ha => exact .step (ih hc) (.warmed (i := i) hi hp ha)
    case send i m hi hp ho hl => exact .step (ih hc) (.send (i := i) hi hp ho hl)
    case finish i hi hp htodo hl => exact .step (ih hc) (.finish (i := i) hi hp htodo hl)
    case caughtUp hr hd => exact .step (ih hc) (.caughtUp hr hd)
    case tick hr hd => exact .step (ih hc) (.tick hr hd)
    case reorgsDone hr hd => exact .step (ih hc) (.reorgsDone hr hd)
    case ready k hr hd => exact .step (ih hc) (.ready (k := k) hr hd)
    case forget hr => exact .step (ih hc) (.forget hr)
    case ask k hr => exact .step (ih hc) (.ask (k := k) hr)
    case take i m rest a wg hd hch ha hk => exact .step (ih hc) (.take hd hch ha hk)
    case quit k hd hk => simp at hc
    case closePart k i ms hk hi hs => simp only [List.set_eq_nil_iff] at hc; rw [hc] at hk; simp at hk
    case closeWait k i hk hi => simp only [List.set_eq_nil_iff] at hc; rw [hc] at hk; simp at hk
    case closeChan k hk hi ho => simp only [List.set_eq_nil_iff] at hc; rw [hc] at hk; simp at hk
    case stop hd hch ho => exact .step (ih hc) (.stop hd hch ho)
    case closed k hk hi' =>
      rw [hi.soon hc] at hk
      cases k <;> simp at hk

/-- An inner consumer that cannot go on is closed. -/
theorem inner_ends (ht : Spec.ReorgTopic (msgs 0)) (ho : ∀ m ∈ msgs 0, start 0 ≤ m.offset) (hwater : ∃ m ∈ msgs 0, hwm 0 m - m.offset ≤ 1) {u : LSys}
    (h : LSys.Steps (Spec.InnerStep hwm) (.init 1 start msgs 1 1) u)
    (hstuck : ∀ v, LSys.Step hwm true [] u v → ¬ (v.callers = u.callers ∨ u.readers = [.released])) :
    u.callers = [.returned] ∧ u.dispatching = false ∧ (u.part 0).phase = .ended := by
  have hnf := (inner_safe ht ho h).1
  have hv := linv_steps (fun _ _ h => inner_step h) h
  by_cases hr : u.readers = [.released]
  · have := C92_partial (inner_late ho h) (by simp) (fun v hst => hstuck v hst (.inr hr)) hnf
    exact ⟨this.1, this.2.1, this.2.2.1 0 (by omega)⟩
  · exfalso
    have hi := innerInv_steps ht h
    have hc : u.closers = [] := by
      cases hc : u.closers with
      | nil => rfl
      | cons x y => exact absurd (hi.late (by simp [hc])) hr
    have hlen := lreaders_length (fun _ _ h => inner_step h) h
    have one : ∀ {P : Nat → Prop}, P 0 → ∀ i, i < 1 → P i := fun h => one_part h
    have hend : Spec.ReorgsEnd true 1 msgs := by
      refine ⟨by simp, fun _ => ?_⟩
      obtain ⟨r, body, c, e, hrr, hcc, hb⟩ := ht
      have h1 : body.countP Spec.isReorgEnd = 0 := by rw [List.countP_eq_zero]; intro m hm; simp [(hb m hm).2.1]
      have h2 : body.countP Spec.isReorgMsg = 0 := by rw [List.countP_eq_zero]; intro m hm; simp [(hb m hm).1]
      have h3 : Spec.isReorgMsg c = false := by
        cases hx : Spec.isReorgMsg c with
        | false => rfl
        | true => rw [end_not_reorg hx] at hcc; cases hcc
      simp [Spec.inAll, List.range_succ, e, List.countP_append, h1, h2, h3, hrr, hcc, end_not_reorg hrr]
    obtain ⟨m0, hm0, hw0⟩ := hwater
    have := C91_one_partial (n := 1) (start := start) (msgs := msgs) (hwm := hwm) (s := { u with callers := [] })
      (one ⟨m0, hm0, ho m0 hm0⟩) (one ⟨m0, hm0, hw0⟩) hend (inner_uncalled ht h hc) (by omega) ?_ ?_
    · obtain ⟨k, hk⟩ := this
      have hk : u.readers[k]? = some .released := hk
      cases hl : u.readers with
      | nil => rw [hl] at hlen; simp at hlen
      | cons x l =>
        rw [hl] at hlen hk
        have : l = [] := by simpa using hlen
        subst this
        cases k with
        | zero => simp at hk; subst hk; exact hr hl
        | succ k => simp at hk
    · intro v hst
      cases hst
      case begin i hi hp => exact hstuck _ (.begin (i := i) hi hp) (.inl rfl)
      case receive i m ms hi hp htodo => exact hstuck _ (.receive (i := i) hi hp htodo) (.inl rfl)
      case warmed i m hi hp ha => exact hstuck _ (.warmed (i := i) hi hp ha) (.inl rfl)
      case send i m hi hp ho hl => exact hstuck _ (.send (i := i) hi hp ho hl) (.inl rfl)
      case finish i hi hp htodo hl => exact hstuck _ (.finish (i := i) hi hp htodo hl) (.inl rfl)
      case caughtUp hr hd => exact hstuck _ (.caughtUp hr hd) (.inl rfl)
      case tick hr hd => exact hstuck _ (.tick hr hd) (.inl rfl)
      case reorgsDone hr hd => exact hstuck _ (.reorgsDone hr hd) (.inl rfl)
      case ready k hr hd => exact hstuck _ (.ready (k := k) hr hd) (.inl rfl)
      case forget hr => exact hstuck _ (.forget hr) (.inl rfl)
      case ask k hr => exact hstuck _ (.ask (k := k) hr) (.inl rfl)
      case take i m rest a wg hd hch ha hk => exact hstuck _ (.take hd hch ha hk) (.inl rfl)
      case quit k hd hk => simp at hk
      case closePart k i ms hk hi hs => have hk : u.closers[k]? = _ := hk; rw [hc] at hk; simp at hk
      case closeWait k i hk hi => have hk : u.closers[k]? = _ := hk; rw [hc] at hk; simp at hk
      case closeChan k hk hi ho => have hk : u.closers[k]? = _ := hk; rw [hc] at hk; simp at hk
      case stop hd hch ho => exact hstuck _ (.stop hd hch ho) (.inl rfl)
      case closed k hk hi' => simp at hk
    · exact hnf

end inner

/-- A topic of one partition: `old` is there when a consumer starts, `new` comes later; offsets count from zero; a consumer gets what is there from the offset
that it names, `-1` naming the end and `-2` the beginning; the last message is read at the high water mark. -/
structure Spec.Topic (W : RWorld) (t : GoStr) (old new : List RMsg) : Prop where
  one : W.broker.partitions t = some [0]
  newest : W.broker.getOffset t 0 (-1) = some (old.length : Int)
  accepts : ∀ o : Int, -2 ≤ o → o ≤ old.length → W.broker.consume t 0 o = true
  atEnd : W.deliver t 0 (-1) = new
  atStart : W.deliver t 0 (-2) = old ++ new
  from_ : ∀ k : Nat, k ≤ old.length → W.deliver t 0 k = (old ++ new).drop k
  numbered : ∀ (k : Nat) m, (old ++ new)[k]? = some m → m.offset = k
  water : ∀ m, (old ++ new).getLast? = some m → W.hwm t 0 m = m.offset + 1

/-- The topic of a reorg. -/
def Spec.IsTopicOf (topic : GoStr) (h : Bytes) (t : GoStr) : Prop := ∃ x, t = topic ++ str "-re-" ++ x ∧ Spec.Hex x h

/-- Every reorg that is announced has a topic in which nothing was when the announcement was received, and which gets `content` and nothing else. -/
def Spec.NewTopics (W : RWorld) (topic : GoStr) (content : Bytes → List RMsg) (msgs : List RMsg) : Prop :=
  ∀ m ∈ msgs, ∀ h, m.key = ReorgType :: h → Spec.ReorgTopic (content h) ∧ ∀ t, Spec.IsTopicOf topic h t → Spec.Topic W t [] (content h)

/-- The message has content for the processor: not a heartbeat, a ping or the end of a reorg. -/
def Spec.isData (m : RMsg) : Bool := match m.key with
  | [] => false
  | t :: _ => t ≠ PingType && t ≠ ReorgCompleteType

/-- What the processor is to get: the messages one after the other, and for the announcement of a reorg what its topic has. -/
def Spec.replay (content : Bytes → List RMsg) : List RMsg → List RMsg
  | [] => []
  | m :: ms => (match m.key with
    | [] => []
    | t :: h => if t = ReorgType then (content h).filter Spec.isData else if Spec.isData m then [m] else []) ++ Spec.replay content ms

/-- The timers of the inner consumers are slow. -/
def Spec.SlowInner (R : NSys → NSys → Prop) (s t : NSys) : Prop :=
  R s t ∧ ∀ (k : Nat) n u n' v, s.inner[k]? = some (n, u) → t.inner[k]? = some (n', v) → u.rdy = .timer → v.rdy = .reorgs →
    u.chan = [] ∧ ∀ i, i < u.n → ∀ m, (u.part i).phase ≠ .sending m

theorem replay_append (content : Bytes → List RMsg) (a b : List RMsg) : Spec.replay content (a ++ b) = Spec.replay content a ++ Spec.replay content b := by
  induction a with
  | nil => rfl
  | cons m a ih => simp only [List.cons_append, Spec.replay, ih, List.append_assoc]

theorem gives_data (m : RMsg) : innerGives m = Spec.isData m := by
  unfold innerGives Spec.isData KC.dispatch
  cases m.key with
  | nil => rfl
  | cons t r =>
    have h1 : ReorgType ≠ PingType := by decide
    have h2 : ReorgType ≠ ReorgCompleteType := by decide
    simp only
    by_cases ht : t = ReorgType
    · subst ht; simp [h1, h2]
    · by_cases hp : t = PingType
      · subst hp; simp [ht]
      · by_cases hc : t = ReorgCompleteType
        · subst hc; simp [ht, hp]
        · simp [ht, hp, hc]

theorem start_topic_eq {W : RWorld} {t : GoStr} {old new : List RMsg} (h : Spec.Topic W t old new) (hl : old.length < 9223372036854775808) :
    W.start t = some (.init 1 (fun i => ([((old.length : Int) - 1, W.deliver t 0 ((old.length : Int) - 1))][i]?.getD (0, [])).1)
      (fun i => ([((old.length : Int) - 1, W.deliver t 0 ((old.length : Int) - 1))][i]?.getD (0, [])).2) 1 1) := by
  have hoff : KC.nested.offsets W.broker t 0 = ((old.length : Int), (old.length : Int) - 1) := by
    have hw : Avro.wrap64 ((old.length : Int) - 1) = (old.length : Int) - 1 := by unfold Avro.wrap64; omega
    simp only [KC.offsets, KC.nested, OffsetNewest, h.newest]
    simp [GMap.get?_empty, hw]
  have hstart : KC.nested.start W.broker t 0 = .ok ((old.length : Int) - 1) := by
    simp only [KC.start, hoff]
    rw [if_pos (h.accepts _ (by omega) (by omega))]
  simp [RWorld.start, h.one, RWorld.openAll, hstart]

/-- Where an inner consumer begins: one message before the end of what is there. -/
theorem start_topic {W : RWorld} {t : GoStr} {old new : List RMsg} (h : Spec.Topic W t old new) (hl : old.length < 9223372036854775808) :
    ∃ start msgs, W.start t = some (.init 1 start msgs 1 1) ∧ start 0 = (old.length : Int) - 1 ∧
      msgs 0 = if old = [] then new else (old ++ new).drop (old.length - 1) := by
  refine ⟨_, _, start_topic_eq h hl, rfl, ?_⟩
  show W.deliver t 0 ((old.length : Int) - 1) = _
  split
  · rename_i e; subst e; exact h.atEnd
  · rename_i e
    have : 0 < old.length := List.length_pos_iff.mpr e
    rw [show (old.length : Int) - 1 = ((old.length - 1 : Nat) : Int) by omega]
    exact h.from_ _ (by omega)

section outer
variable {W : RWorld} {topic : GoStr} {content : Bytes → List RMsg} {msgs : List RMsg}

/-- An inner consumer of the topic of a reorg. -/
def InnerOf (W : RWorld) (content : Bytes → List RMsg) (t : GoStr) (u : LSys) (h : Bytes) : Prop :=
  ∃ start ms, start 0 = -1 ∧ ms 0 = content h ∧ Spec.ReorgTopic (content h) ∧ Spec.Topic W t [] (content h) ∧
    LSys.Steps (Spec.InnerStep (W.hwm t)) (.init 1 start ms 1 1) u

/-- What the outer dispatcher does. -/
theorem dispatch_outer {m : RMsg} {a : Dispatch} {wg : Nat} (h : KC.dispatch false topic 0 m.key = .ok (a, wg)) : wg = 0 ∧
    ((∃ x, m.key = ReorgType :: x ∧ a = .reorgConsumer (topic ++ str "-re-" ++ hexBytes x)) ∨
      (∀ x, m.key ≠ ReorgType :: x) ∧ (∀ t, a ≠ .reorgConsumer t) ∧ (a = .process ↔ Spec.isData m = true)) := by
  unfold KC.dispatch at h
  unfold Spec.isData
  cases hk : m.key with
  | nil =>
    rw [hk] at h
    simp only [Except.ok.injEq, Prod.mk.injEq] at h
    obtain ⟨rfl, rfl⟩ := h
    simp
  | cons t x =>
    rw [hk] at h
    simp only at h ⊢
    by_cases h1 : t = ReorgType
    · subst h1
      have e : str "-re-" = [45, 114, 101, 45] := by decide
      simp only [if_true, Bool.false_eq_true, if_false, Except.ok.injEq, Prod.mk.injEq] at h
      refine ⟨h.2.symm, .inl ⟨x, rfl, ?_⟩⟩
      rw [e]; exact h.1.symm
    · rw [if_neg h1] at h
      have hne : ∀ y, t :: x ≠ ReorgType :: y := by intro y e; simp only [List.cons.injEq] at e; exact h1 e.1
      by_cases h2 : t = PingType
      · rw [if_pos h2] at h
        simp only [Except.ok.injEq, Prod.mk.injEq] at h
        obtain ⟨rfl, rfl⟩ := h
        exact ⟨rfl, .inr ⟨hne, by simp, by simp [h2]⟩⟩
      · rw [if_neg h2] at h
        by_cases h3 : t = ReorgCompleteType
        · rw [if_pos h3] at h; simp at h
        · rw [if_neg h3] at h
          simp only [Except.ok.injEq, Prod.mk.injEq] at h
          obtain ⟨rfl, rfl⟩ := h
          exact ⟨rfl, .inr ⟨hne, by simp, by simp [h2, h3]⟩⟩

theorem replay_other {m : RMsg} (h : ∀ x, m.key ≠ ReorgType :: x) : Spec.replay content [m] = if Spec.isData m then [m] else [] := by
  simp only [Spec.replay, List.append_nil]
  cases hk : m.key with
  | nil => simp [Spec.isData, hk]
  | cons t x =>
    have : t ≠ ReorgType := by intro e; exact h x (by rw [hk, e])
    simp [this]

theorem replay_reorg {m : RMsg} {x : Bytes} (h : m.key = ReorgType :: x) : Spec.replay content [m] = (content x).filter Spec.isData := by
  simp [Spec.replay, h]

/-- Where the outer dispatcher stands. -/
inductive NPlace (W : RWorld) (content : Bytes → List RMsg) (s : NSys) : Prop
  | free : s.phase = .free → s.calls = Spec.replay content s.taken → NPlace W content s
  | inside (k : Nat) (t : GoStr) (u : LSys) (pre : List RMsg) (m : RMsg) (h : Bytes) : s.phase = .inside k → s.inner[k]? = some (t, u) → InnerOf W content t u h →
      s.taken = pre ++ [m] → m.key = ReorgType :: h → s.calls = Spec.replay content pre ++ (u.handled.map Prod.snd).filter Spec.isData → NPlace W content s

structure NInv (W : RWorld) (content : Bytes → List RMsg) (msgs : List RMsg) (s : NSys) : Prop where
  all : s.taken ++ s.todo = msgs
  wg : s.wg = 0
  inner : ∀ (k : Nat) t u, s.inner[k]? = some (t, u) → ∃ h, InnerOf W content t u h
  old : ∀ (k : Nat) t u, s.inner[k]? = some (t, u) → s.phase ≠ .inside k → u.callers = [.returned]
  place : NPlace W content s

theorem lstep_handled {hwm : Nat → RMsg → Int} {u v : LSys} (h : LSys.Step hwm true [] u v) :
    v.handled = u.handled ∨ ∃ e, v.handled = u.handled ++ [e] ∧ u.chan ≠ [] := by
  cases h <;> first | exact .inl rfl | skip
  case take i m rest a wg hd hc ha hk => exact .inr ⟨(i, m), rfl, by simp [hc]⟩

/-- `Close` that has returned stays so. -/
theorem lstep_returned {hwm : Nat → RMsg → Int} {u v : LSys} (h : LSys.Step hwm true [] u v) (hu : u.callers = [.returned]) : v.callers = [.returned] := by
  cases h <;> first | exact hu | skip
  case quit k hd hk => rw [hu] at hk; cases k <;> simp at hk
  case closed k hk hi => rw [hu] at hk; cases k <;> simp at hk

theorem InnerOf.closed {t : GoStr} {u : LSys} {h : Bytes} (hi : InnerOf W content t u h) (hu : u.callers ≠ [.soon]) :
    u.handled.map Prod.snd = content h ∧ u.chan = [] ∧ (u.part 0).todo = [] ∧ (u.part 0).phase.held = [] := by
  obtain ⟨start, ms, e1, e2, ht, _, hs⟩ := hi
  have := inner_closed (by rw [e2]; exact ht) hs hu
  rwa [e2] at this

theorem ninv_steps (hT : Spec.NewTopics W topic content msgs) {s : NSys} (h : NSys.Steps (Spec.SlowInner (NSys.Step W topic)) (.init msgs) s) :
    NInv W content msgs s := by
  induction h with
  | refl => exact ⟨rfl, rfl, by simp [NSys.init], by simp [NSys.init], .free rfl rfl⟩
  | @step s s' _ hst ih =>
    obtain ⟨hst, hslow⟩ := hst
    cases hst with
    | @take m rest a wg hf htodo hd hna =>
      rw [ih.wg] at hd
      obtain ⟨hw, hcase⟩ := dispatch_outer hd
      rcases hcase with ⟨x, _, e⟩ | ⟨hno, _, hiff⟩
      · exact absurd e (hna _)
      refine ⟨?_, hw, ih.inner, ih.old, ?_⟩
      · rw [← ih.all, htodo]; simp
      cases ih.place with
      | inside k t u pre m' h hp => rw [hf] at hp; cases hp
      | free _ hcalls =>
        refine .free hf ?_
        show s.calls ++ _ = _
        rw [replay_append, replay_other hno, hcalls]
        by_cases hx : a = .process
        · rw [if_pos hx, if_pos (hiff.mp hx)]
        · rw [if_neg hx, if_neg (fun e => hx (hiff.mpr e))]
    | @announce m rest t wg u hf htodo hd hstart =>
      rw [ih.wg] at hd
      obtain ⟨hw, hcase⟩ := dispatch_outer hd
      rcases hcase with ⟨x, hk, e⟩ | ⟨_, hno, _⟩
      · have hm : m ∈ msgs := by rw [← ih.all, htodo]; simp
        obtain ⟨hr, ht⟩ := hT m hm x hk
        simp only [Dispatch.reorgConsumer.injEq] at e
        have ht := ht t ⟨hexBytes x, e, hexBytes_hex x⟩
        obtain ⟨start, ms, e1, e2, e3⟩ := start_topic ht (by simp)
        rw [e1] at hstart
        simp only [Option.some.injEq] at hstart
        rw [if_pos rfl] at e3
        have hin : InnerOf W content t u x := ⟨start, ms, by simpa using e2, e3, hr, ht, by rw [← hstart]; exact .refl⟩
        have hcalls : s.calls = Spec.replay content s.taken := by
          cases ih.place with
          | free _ h => exact h
          | inside k t u pre m' h hp => rw [hf] at hp; cases hp
        refine ⟨?_, hw, ?_, ?_, ?_⟩
        · rw [← ih.all, htodo]; simp
        · intro k t' u' hk'
          simp only [List.getElem?_append] at hk'
          split at hk'
          · exact ih.inner k t' u' hk'
          · rename_i hlt
            have : k - s.inner.length = 0 := by
              cases hx : k - s.inner.length with
              | zero => rfl
              | succ j => rw [hx] at hk'; simp at hk'
            rw [this] at hk'
            simp only [List.getElem?_cons_zero, Option.some.injEq, Prod.mk.injEq] at hk'
            obtain ⟨rfl, rfl⟩ := hk'
            exact ⟨x, hin⟩
        · intro k t' u' hk' hne
          simp only [List.getElem?_append] at hk'
          split at hk'
          · exact ih.old k t' u' hk' (by rw [hf]; simp)
          · rename_i hlt
            have : k - s.inner.length = 0 := by
              cases hx : k - s.inner.length with
              | zero => rfl
              | succ j => rw [hx] at hk'; simp at hk'
            exact absurd (show NPhase.inside s.inner.length = .inside k by rw [show k = s.inner.length by omega]) hne
        · refine .inside s.inner.length t u s.taken m x rfl (by simp) hin rfl hk ?_
          show s.calls = _
          rw [hcalls, ← hstart]; simp [LSys.init]
      · exact absurd rfl (hno t)
    | @fail m rest t wg hf htodo hd hstart =>
      rw [ih.wg] at hd
      obtain ⟨hw, hcase⟩ := dispatch_outer hd
      rcases hcase with ⟨x, hk, e⟩ | ⟨_, hno, _⟩
      · have hm : m ∈ msgs := by rw [← ih.all, htodo]; simp
        obtain ⟨hr, ht⟩ := hT m hm x hk
        simp only [Dispatch.reorgConsumer.injEq] at e
        obtain ⟨start, ms, e1, e2, e3⟩ := start_topic (ht t ⟨hexBytes x, e, hexBytes_hex x⟩) (by simp)
        rw [e1] at hstart; cases hstart
      · exact absurd rfl (hno t)
    | @inner k t u v hk hsv hcl =>
      have hlt := (List.getElem?_eq_some_iff.mp hk).1
      have hset : (s.inner.set k (t, v))[k]? = some (t, v) := by simp [hlt]
      have hstep : Spec.InnerStep (W.hwm t) u v := ⟨⟨hsv, fun a b => hslow k t u t v hk hset a b⟩, hcl⟩
      have hnext : ∀ h, InnerOf W content t u h → InnerOf W content t v h := by
        rintro h ⟨start, ms, a, b, c, d, e⟩
        exact ⟨start, ms, a, b, c, d, .step e hstep⟩
      have hinner : ∀ (j : Nat) t' u', (s.inner.set k (t, v))[j]? = some (t', u') → (j = k ∧ t' = t ∧ u' = v) ∨ (j ≠ k ∧ s.inner[j]? = some (t', u')) := by
        intro j t' u' hj
        by_cases e : j = k
        · subst e; rw [hset] at hj
          simp only [Option.some.injEq, Prod.mk.injEq] at hj
          exact .inl ⟨rfl, hj.1.symm, hj.2.symm⟩
        · exact .inr ⟨e, by rwa [List.getElem?_set_ne (Ne.symm e)] at hj⟩
      have hret : ∀ h, InnerOf W content t u h → u.callers = [.returned] → v.handled = u.handled := by
        intro h hi hu
        rcases lstep_handled hsv with e | ⟨e, _, hne⟩
        · exact e
        · exact absurd (hi.closed (by rw [hu]; simp)).2.1 hne
      refine ⟨ih.all, ih.wg, ?_, ?_, ?_⟩
      · intro j t' u' hj
        rcases hinner j t' u' hj with ⟨rfl, rfl, rfl⟩ | ⟨_, hj⟩
        · obtain ⟨h, hi⟩ := ih.inner _ _ _ hk; exact ⟨h, hnext h hi⟩
        · exact ih.inner _ _ _ hj
      · intro j t' u' hj hne
        rcases hinner j t' u' hj with ⟨rfl, rfl, rfl⟩ | ⟨_, hj⟩
        · exact lstep_returned hsv (ih.old _ _ _ hk hne)
        · exact ih.old _ _ _ hj hne
      · have hquiet : s.phase ≠ .inside k → v.handled = u.handled := by
          intro hne
          obtain ⟨h, hi⟩ := ih.inner _ _ _ hk
          exact hret h hi (ih.old _ _ _ hk hne)
        cases ih.place with
        | free hf hcalls =>
          refine .free hf ?_
          show s.calls ++ _ = _
          rw [hquiet (by rw [hf]; simp)]
          simpa using hcalls
        | inside k' t' u' pre m h hp hk' hi htaken hkey hcalls =>
          by_cases e : k' = k
          · subst e
            rw [hk] at hk'
            simp only [Option.some.injEq, Prod.mk.injEq] at hk'
            obtain ⟨rfl, rfl⟩ := hk'
            refine .inside k' t v pre m h hp hset (hnext h hi) htaken hkey ?_
            show s.calls ++ _ = _
            rw [hcalls, List.append_assoc]
            congr 1
            have hg : innerGives = Spec.isData := funext gives_data
            rcases lstep_handled hsv with e | ⟨x, e, _⟩
            · rw [e]; simp
            · rw [e]; simp [hg]
          · refine .inside k' t' u' pre m h hp (by show (s.inner.set k (t, v))[k']? = _; rw [List.getElem?_set_ne (Ne.symm e)]; exact hk') hi htaken hkey ?_
            show s.calls ++ _ = _
            rw [hquiet (by rw [hp]; intro h; cases h; exact e rfl)]
            simpa using hcalls
    | @leave k t u hp hk hu =>
      refine ⟨ih.all, ih.wg, ih.inner, ?_, ?_⟩
      · intro j t' u' hj _
        by_cases e : k = j
        · subst e
          have hj : s.inner[k]? = some (t', u') := hj
          rw [hk] at hj
          simp only [Option.some.injEq, Prod.mk.injEq] at hj
          rw [← hj.2]; exact hu
        · exact ih.old j t' u' hj (by rw [hp]; intro h; cases h; exact e rfl)
      · cases ih.place with
        | free hf _ => rw [hp] at hf; cases hf
        | inside k' t' u' pre m h hp' hk' hi htaken hkey hcalls =>
          rw [hp] at hp'
          cases hp'
          rw [hk] at hk'
          simp only [Option.some.injEq, Prod.mk.injEq] at hk'
          obtain ⟨rfl, rfl⟩ := hk'
          refine .free rfl ?_
          show s.calls = _
          rw [hcalls, (hi.closed (by rw [hu]; simp)).1, show ({ s with phase := NPhase.free } : NSys).taken = pre ++ [m] from htaken, replay_append, replay_reorg hkey]

/-- **C107** (partial: for reorg topics of one partition that are empty when the announcement is received, and slow timers; the `C107_refuted` theorems show why):
the messages given to the processor are those of the outer topic in turn, with the messages of the reorg topic in the place of each announcement; when the outer
dispatcher goes on after a reorg, all of the reorg has been given. -/
theorem C107_partial (hT : Spec.NewTopics W topic content msgs) {s : NSys} (h : NSys.Steps (Spec.SlowInner (NSys.Step W topic)) (.init msgs) s) :
    s.taken ++ s.todo = msgs ∧ s.calls <+: Spec.replay content s.taken ∧ (s.phase = .free → s.calls = Spec.replay content s.taken) := by
  have hv := ninv_steps hT h
  refine ⟨hv.all, ?_, fun hf => ?_⟩
  · cases hv.place with
    | free _ hc => rw [hc]; exact List.prefix_refl _
    | inside k t u pre m h hp hk hi htaken hkey hcalls =>
      obtain ⟨start, ms, e1, e2, ht, _, hs⟩ := hi
      have hl := linv_steps (fun _ _ h => inner_step h) hs
      rw [hcalls, htaken, replay_append, replay_reorg hkey]
      refine (List.prefix_append_right_inj _).mpr (List.IsPrefix.filter _ ?_)
      have hin := innerInv_steps (by rw [e2]; exact ht) hs
      by_cases hc : u.closers = []
      · have := inner_whole hl hc
        rw [← e2, ← this]
        exact List.prefix_append _ _
      · have := hl.free ⟨0, by rw [hin.late hc]; rfl⟩
        have hall : u.handled.map Prod.snd = ms 0 := by
          rcases this with e | e <;> exact (hin.all (by rw [e]; simp) (by rw [e]; simp) (by rw [e]; simp)).1
        rw [hall, e2]
        exact List.prefix_refl _
  · cases hv.place with
    | free _ hc => exact hc
    | inside k t u pre m h hp => rw [hf] at hp; cases hp

/-- **C107** (partial, as above): when the outer dispatcher goes on, no inner consumer has a message left that its dispatcher could give to the processor at the same time. -/
theorem C107_alone_partial (hT : Spec.NewTopics W topic content msgs) {s : NSys} (h : NSys.Steps (Spec.SlowInner (NSys.Step W topic)) (.init msgs) s)
    (hf : s.phase = .free) {k : Nat} {t : GoStr} {u : LSys} (hk : s.inner[k]? = some (t, u)) :
    u.chan = [] ∧ (u.part 0).todo = [] ∧ (u.part 0).phase.held = [] := by
  have hv := ninv_steps hT h
  obtain ⟨x, hi⟩ := hv.inner k t u hk
  exact (hi.closed (by rw [hv.old k t u hk (by rw [hf]; simp)]; simp)).2

theorem topic_offsets {t : GoStr} {l : List RMsg} (h : Spec.Topic W t [] l) : ∀ m ∈ l, (-1 : Int) ≤ m.offset := by
  intro m hm
  obtain ⟨k, hk⟩ := List.getElem?_of_mem hm
  have := h.numbered k m (by simpa using hk)
  omega

/-- **C107** (partial, as above, and for an outer topic without ends of reorgs, see C61): nothing panics. -/
theorem C107_safe_partial (hT : Spec.NewTopics W topic content msgs) (hmain : ∀ m ∈ msgs, Spec.isReorgEnd m = false) {s : NSys}
    (h : NSys.Steps (Spec.SlowInner (NSys.Step W topic)) (.init msgs) s) : ¬ s.Faulting topic := by
  have hv := ninv_steps hT h
  rintro (⟨m, rest, f, hf, htodo, hd⟩ | ⟨k, t, u, hk, hx⟩)
  · have hm := hmain m (by rw [← hv.all, htodo]; simp)
    unfold KC.dispatch at hd
    cases hkey : m.key with
    | nil => rw [hkey] at hd; simp at hd
    | cons b r =>
      rw [hkey] at hd
      simp only at hd
      split at hd
      · simp at hd
      · split at hd
        · simp at hd
        · split at hd
          · rename_i hb; simp [Spec.isReorgEnd, hkey, hb] at hm
          · simp at hd
  · obtain ⟨x, start, ms, e1, e2, ht, htop, hs⟩ := hv.inner k t u hk
    obtain ⟨h1, h2⟩ := inner_safe (by rw [e2]; exact ht) (by rw [e1, e2]; exact topic_offsets htop) hs
    rcases hx with hx | ⟨e, he, hp⟩
    · exact h1 hx
    · exact h2 e he hp

/-- **C107** (partial, as above): every execution that goes on while it can ends with all messages of the outer topic received, the dispatcher free, and all inner consumers
closed with their goroutines. There are no endless executions (`nsys_no_endless`). -/
theorem C107_ends_partial (hT : Spec.NewTopics W topic content msgs) (hmain : ∀ m ∈ msgs, Spec.isReorgEnd m = false) {s : NSys}
    (h : NSys.Steps (Spec.SlowInner (NSys.Step W topic)) (.init msgs) s) (hstuck : ∀ t, ¬ NSys.Step W topic s t) :
    s.todo = [] ∧ s.phase = .free ∧ s.calls = Spec.replay content msgs ∧
    ∀ (k : Nat) t u, s.inner[k]? = some (t, u) → u.callers = [.returned] ∧ u.dispatching = false ∧ (u.part 0).phase = .ended := by
  have hv := ninv_steps hT h
  have hinner : ∀ (k : Nat) t u, s.inner[k]? = some (t, u) → u.callers = [.returned] ∧ u.dispatching = false ∧ (u.part 0).phase = .ended := by
    intro k t u hk
    obtain ⟨x, start, ms, e1, e2, ht, htop, hs⟩ := hv.inner k t u hk
    refine inner_ends (by rw [e2]; exact ht) (by rw [e1, e2]; exact topic_offsets htop) ?_ hs (fun v hst hcl => hstuck _ (.inner hk hst hcl))
    obtain ⟨r, body, c, e, _⟩ := ht
    refine ⟨c, by rw [e2, e]; simp, ?_⟩
    have := htop.water c (by rw [List.nil_append, e]; exact List.getLast?_concat (l := r :: body))
    omega
  have hf : s.phase = .free := by
    cases hv.place with
    | free hf _ => exact hf
    | inside k t u pre m h hp hk hi htaken hkey hcalls => exact absurd (.leave hp hk (hinner k t u hk).1) (hstuck _)
  have htodo : s.todo = [] := by
    cases htodo : s.todo with
    | nil => rfl
    | cons m rest =>
      exfalso
      cases hd : KC.dispatch false topic s.wg m.key with
      | error f => exact C107_safe_partial hT hmain h (.inl ⟨m, rest, f, hf, htodo, hd⟩)
      | ok p =>
        obtain ⟨a, wg⟩ := p
        by_cases ha : ∃ t, a = .reorgConsumer t
        · obtain ⟨t, rfl⟩ := ha
          cases hst : W.start t with
          | none => exact hstuck _ (.fail hf htodo hd hst)
          | some u => exact hstuck _ (.announce hf htodo hd hst)
        · exact hstuck _ (.take hf htodo hd (fun t e => ha ⟨t, e⟩))
  refine ⟨htodo, hf, ?_, hinner⟩
  have h1 := (C107_partial hT h).2.2 hf
  have h2 := hv.all
  rw [htodo, List.append_nil] at h2
  rw [h1, h2]

/-- How many steps are left at most. -/
def NSys.cost (W : RWorld) (topic : GoStr) (m : RMsg) : Nat := 2 + match KC.dispatch false topic 0 m.key with
  | .ok (.reorgConsumer t, _) => (match W.start t with | some u => u.left | none => 0)
  | _ => 0

def NSys.left (W : RWorld) (topic : GoStr) (s : NSys) : Nat :=
  (s.todo.map (NSys.cost W topic)).sum + (s.inner.map (fun e => e.2.left)).sum + match s.phase with
    | .inside _ => 1
    | _ => 0

theorem dispatch_consumer {wg wg' : Nat} {key : Bytes} {t : GoStr} (h : KC.dispatch false topic wg key = .ok (.reorgConsumer t, wg')) :
    KC.dispatch false topic 0 key = .ok (.reorgConsumer t, 0) := by
  unfold KC.dispatch at h ⊢
  cases key with
  | nil => simp at h
  | cons b r =>
    simp only at h ⊢
    split at h
    · rename_i hb
      simp only [Bool.false_eq_true, if_false, Except.ok.injEq, Prod.mk.injEq, Dispatch.reorgConsumer.injEq] at h
      rw [if_pos hb]
      simp [h.1]
    · split at h
      · simp at h
      · split at h
        · split at h <;> simp at h
        · simp at h

/-- Every step has fewer steps left. -/
theorem nsys_less {s t : NSys} (h : NSys.Step W topic s t) : t.left W topic < s.left W topic := by
  cases h with
  | take hf htodo hd hna => simp only [NSys.left, htodo, hf, List.map_cons, List.sum_cons, NSys.cost]; omega
  | announce hf htodo hd hst =>
    have := dispatch_consumer hd
    simp only [NSys.left, htodo, hf, List.map_cons, List.sum_cons, NSys.cost, this, hst, List.map_append, List.sum_append, List.map_nil, List.sum_nil]
    omega
  | fail hf htodo hd hst => simp only [NSys.left, htodo, hf, List.map_cons, List.sum_cons, NSys.cost]; omega
  | @inner k t u v hk hst hcl =>
    have h1 := lsys_less hst
    have h2 := sum_set (fun e : GoStr × LSys => e.2.left) (x := (t, v)) hk
    simp only [NSys.left] at h2 ⊢
    omega
  | leave hp hk hu => simp only [NSys.left, hp]; omega

/-- There are no endless executions. -/
theorem nsys_no_endless (f : Nat → NSys) (h : ∀ k, NSys.Step W topic (f k) (f (k + 1))) : False := by
  have : ∀ m k, (f k).left W topic ≤ m → False := by
    intro m
    induction m with
    | zero => intro k hk; have := nsys_less (h k); omega
    | succ m ih => intro k hk; exact ih (k + 1) (by have := nsys_less (h k); omega)
  exact this _ 0 (Nat.le_refl _)

/-- **C107 fails** in general: of what is in the reorg topic when the announcement is received, all but the last message is passed over. -/
theorem C107_refuted_begin {t : GoStr} {old new : List RMsg} (h : Spec.Topic W t old new) (hl : old.length < 9223372036854775808) (hold : old ≠ []) :
    ∃ start msgs, W.start t = some (.init 1 start msgs 1 1) ∧ msgs 0 = (old ++ new).drop (old.length - 1) := by
  obtain ⟨start, msgs, e1, _, e3⟩ := start_topic h hl
  rw [if_neg hold] at e3
  exact ⟨start, msgs, e1, e3⟩

end outer

/-! ### Examples and what goes wrong -/

/-- A message of a type with an offset. -/
def exRe (t : UInt8) (o : Int) : RMsg := { key := t :: List.replicate 32 7, value := [], offset := o, source := str "b" }

/-- A broker whose topics all have one partition with the messages `old`, to which `new` will be added. -/
def exRW (old new : List RMsg) : RWorld where
  broker := { getOffset := fun _ _ _ => some old.length, consume := fun _ _ _ => true, partitions := fun _ => some [0] }
  deliver := fun _ _ o => if o = -1 then new else if o = -2 then old ++ new else (old ++ new).drop o.toNat
  hwm := fun _ _ _ => (old ++ new).length

/-- The announcement, a block, the end. -/
def exReTopic : List RMsg := [exRe ReorgType 0, exRe BatchType 1, exRe ReorgCompleteType 2]

theorem exReTopic_is : Spec.ReorgTopic exReTopic := ⟨exRe ReorgType 0, [exRe BatchType 1], exRe ReorgCompleteType 2, rfl, by decide, by decide, by decide⟩

theorem exRW_topic {old new : List RMsg} (h : old ++ new = exReTopic) (t : GoStr) : Spec.Topic (exRW old new) t old new := by
  refine ⟨rfl, rfl, fun _ _ _ => rfl, rfl, rfl, fun k _ => ?_, fun k m hk => ?_, fun m hm => ?_⟩
  · have h1 : ¬ (k : Int) = -1 := by omega
    have h2 : ¬ (k : Int) = -2 := by omega
    show (if (k : Int) = -1 then new else if (k : Int) = -2 then old ++ new else (old ++ new).drop (k : Int).toNat) = _
    rw [if_neg h1, if_neg h2, Int.toNat_natCast]
  · rw [h] at hk
    match k with
    | 0 => simp [exReTopic] at hk; rw [← hk]; rfl
    | 1 => simp [exReTopic] at hk; rw [← hk]; rfl
    | 2 => simp [exReTopic] at hk; rw [← hk]; rfl
    | k + 3 => simp [exReTopic] at hk
  · rw [h] at hm
    show ((old ++ new).length : Int) = _
    rw [h]
    simp [exReTopic] at hm
    rw [← hm]; rfl

/-- Steps of the last inner consumer are steps of the whole. -/
theorem nsteps_inner {W : RWorld} {topic t : GoStr} {u v : LSys} (h : LSys.Steps (Spec.InnerStep (W.hwm t)) u v) {s0 s : NSys} {pre : List (GoStr × LSys)}
    (hs : NSys.Steps (Spec.SlowInner (NSys.Step W topic)) s0 s) (hin : s.inner = pre ++ [(t, u)]) :
    ∃ l, v.handled = u.handled ++ l ∧
      NSys.Steps (Spec.SlowInner (NSys.Step W topic)) s0 { s with inner := pre ++ [(t, v)], calls := s.calls ++ (l.map Prod.snd).filter Spec.isData } := by
  induction h with
  | refl => refine ⟨[], by simp, ?_⟩; rw [← hin]; simpa using hs
  | @step v w _ hst ih =>
    obtain ⟨l, e, ih⟩ := ih
    have hstep := NSys.Step.inner (W := W) (topic := topic) (k := pre.length) (t := t) (u := v) (v := w)
      (s := { s with inner := pre ++ [(t, v)], calls := s.calls ++ (l.map Prod.snd).filter Spec.isData }) (by simp) (inner_step hst) hst.2
    have hg : innerGives = Spec.isData := funext gives_data
    have hslow : ∀ (k : Nat) n x n' y, (pre ++ [(t, v)])[k]? = some (n, x) → (pre ++ [(t, w)])[k]? = some (n', y) → x.rdy = .timer → y.rdy = .reorgs →
        x.chan = [] ∧ ∀ i, i < x.n → ∀ m, (x.part i).phase ≠ .sending m := by
      intro k n x n' y hx hy hr hr'
      by_cases hk : k < pre.length
      · rw [List.getElem?_append_left hk] at hx hy
        rw [hx] at hy
        simp only [Option.some.injEq, Prod.mk.injEq] at hy
        rw [← hy.2, hr] at hr'; cases hr'
      · rw [List.getElem?_append_right (by omega)] at hx hy
        cases hz : k - pre.length with
        | succ j => rw [hz] at hx; simp at hx
        | zero =>
          rw [hz] at hx hy
          simp only [List.getElem?_cons_zero, Option.some.injEq, Prod.mk.injEq] at hx hy
          rw [← hx.2] at hr ⊢
          rw [← hy.2] at hr'
          exact hst.1.2 hr hr'
    rcases lstep_handled (inner_step hst) with e' | ⟨x, e', _⟩
    · refine ⟨l, e'.trans e, ?_⟩
      rw [e'] at hstep
      simp only [List.drop_length, List.map_nil, List.filter_nil, List.append_nil, List.set_append_right _ _ (Nat.le_refl _), Nat.sub_self, List.set_cons_zero] at hstep
      exact .step ih ⟨hstep, hslow⟩
    · refine ⟨l ++ [x], by rw [e', e, List.append_assoc], ?_⟩
      rw [e'] at hstep
      simp only [List.drop_left, List.set_append_right _ _ (Nat.le_refl _), Nat.sub_self, List.set_cons_zero, hg, List.append_assoc, ← List.filter_append, ← List.map_append] at hstep
      exact .step ih ⟨hstep, hslow⟩

/-- The topic of the example. -/
def exReName : GoStr := str "t" ++ str "-re-" ++ hexBytes (List.replicate 32 7)

/-- The inner consumer of the example as it starts. -/
def exReInit (old new : List RMsg) : LSys :=
  .init 1 (fun i => ([((old.length : Int) - 1, (exRW old new).deliver exReName 0 ((old.length : Int) - 1))][i]?.getD (0, [])).1)
    (fun i => ([((old.length : Int) - 1, (exRW old new).deliver exReName 0 ((old.length : Int) - 1))][i]?.getD (0, [])).2) 1 1

theorem exRe_announce {old new : List RMsg} (h : old ++ new = exReTopic) (rest : List RMsg) :
    NSys.Steps (Spec.SlowInner (NSys.Step (exRW old new) (str "t"))) (.init (exRe ReorgType 0 :: rest))
      { todo := rest, taken := [exRe ReorgType 0], wg := 0, phase := .inside 0, inner := [(exReName, exReInit old new)], calls := [] } := by
  have hl : old.length < 9223372036854775808 := by
    have := congrArg List.length h
    simp [exReTopic] at this; omega
  refine .step .refl ⟨.announce (m := exRe ReorgType 0) (t := exReName) (wg := 0) rfl rfl rfl (start_topic_eq (exRW_topic h exReName) hl), ?_⟩
  intro k n u n' v hu
  simp [NSys.init] at hu

/-- **C107 fails** when the reorg is over before the announcement is received: the inner consumer begins with the end of the reorg, for which the `WaitGroup` has
nothing to take away: panic, and nothing of the reorg has been processed. -/
theorem C107_refuted_late : ∃ s, (∀ t, Spec.Topic (exRW exReTopic []) t exReTopic []) ∧ Spec.ReorgTopic exReTopic ∧
    NSys.Steps (Spec.SlowInner (NSys.Step (exRW exReTopic []) (str "t"))) (.init [exRe ReorgType 0]) s ∧ s.Faulting (str "t") ∧ s.calls = [] := by
  have h := exRe_announce (old := exReTopic) (new := []) rfl []
  have h0 : LSys.Steps (Spec.InnerStep ((exRW exReTopic []).hwm exReName)) (exReInit exReTopic []) _ := .refl
  have h1 := h0.step ⟨⟨.begin (i := 0) (by decide) rfl, fun e => by cases e⟩, .inl rfl⟩
  have h2 := h1.step ⟨⟨.receive (i := 0) (m := exRe ReorgCompleteType 2) (ms := []) (by decide) rfl rfl, fun e => by cases e⟩, .inl rfl⟩
  have h3 := h2.step ⟨⟨.warmed (i := 0) (m := exRe ReorgCompleteType 2) (by decide) rfl (one_part rfl), fun e => by cases e⟩, .inl rfl⟩
  have h4 := h3.step ⟨⟨.send (i := 0) (m := exRe ReorgCompleteType 2) (by decide) rfl rfl (by decide), fun e => by cases e⟩, .inl rfl⟩
  obtain ⟨l, e, hn⟩ := nsteps_inner (pre := []) h4 h rfl
  have hl : l = [] := by
    have e : ([] : List (Nat × RMsg)) = [] ++ l := e
    simpa using e.symm
  subst hl
  exact ⟨_, exRW_topic rfl, exReTopic_is, hn, .inr ⟨0, _, _, rfl, .inl (.inr (.inr ⟨0, exRe ReorgCompleteType 2, [], .panic, rfl, rfl, rfl⟩))⟩, rfl⟩

/-- **C107 fails** when the topic does not exist or cannot be read: nobody looks at the error of `Start`, and the consumer waits for ever. -/
theorem C107_refuted_missing {W : RWorld} (hW : ∀ t, W.broker.partitions t = none ∨
      ∃ (p : Int) (ps : List Int), W.broker.partitions t = some (p :: ps) ∧ ∀ o, W.broker.consume t p o = false) :
    ∃ s, NSys.Steps (Spec.SlowInner (NSys.Step W (str "t"))) (.init [exRe ReorgType 0, exRe BatchType 1]) s ∧
    (∀ t, ¬ NSys.Step W (str "t") s t) ∧ s.todo = [exRe BatchType 1] ∧ s.calls = [] := by
  have hnone : ∀ t, W.start t = none := by
    intro t
    unfold RWorld.start
    rcases hW t with h | ⟨p, ps, h, hc⟩
    · rw [h]
    · rw [h]
      simp [RWorld.openAll, KC.start, hc]
  refine ⟨_, .step .refl ⟨.fail (m := exRe ReorgType 0) (rest := [exRe BatchType 1]) (wg := 0) rfl rfl rfl (hnone _), ?_⟩, ?_, rfl, rfl⟩
  · intro k n u n' v hu
    simp [NSys.init] at hu
  · intro t h
    cases h with
    | take hf => cases hf
    | announce hf => cases hf
    | fail hf => cases hf
    | inner hk => simp [NSys.init] at hk
    | leave hf => cases hf

/-- A case that meets the hypothesis of `C107_refuted_missing`: a broker that refuses. -/
example : ∀ t, ({ exRW [] [] with broker := { (exRW [] []).broker with consume := fun _ _ _ => false } } : RWorld).broker.partitions t = none ∨
    ∃ (p : Int) (ps : List Int), (exRW [] []).broker.partitions t = some (p :: ps) ∧ ∀ (o : Int), (fun (_ : GoStr) (_ _ : Int) => false) t p o = false :=
  fun _ => .inr ⟨0, [], rfl, fun _ => rfl⟩

/-- A block of the main topic. -/
def exReBlock : RMsg := exRe BatchType 9

/-- A case that meets the hypotheses of the `C107` theorems: the topic is new when the announcement comes, the reorg is processed, and then the next block. -/
example : Spec.NewTopics (exRW [] exReTopic) (str "t") (fun _ => exReTopic) [exRe ReorgType 0, exReBlock] ∧
    (∀ m ∈ [exRe ReorgType 0, exReBlock], Spec.isReorgEnd m = false) ∧
    ∃ s, NSys.Steps (Spec.SlowInner (NSys.Step (exRW [] exReTopic) (str "t"))) (.init [exRe ReorgType 0, exReBlock]) s ∧
      s.todo = [] ∧ s.phase = .free ∧ s.calls = [exRe ReorgType 0, exRe BatchType 1, exReBlock] := by
  refine ⟨fun m _ h _ => ⟨exReTopic_is, fun t _ => exRW_topic rfl t⟩, by decide, ?_⟩
  have h := exRe_announce (old := []) (new := exReTopic) rfl [exReBlock]
  have step : ∀ {u v}, LSys.Steps (Spec.InnerStep ((exRW [] exReTopic).hwm exReName)) (exReInit [] exReTopic) u → LSys.Step ((exRW [] exReTopic).hwm exReName) true [] u v →
      (u.rdy ≠ .timer ∨ v.rdy ≠ .reorgs) → (v.callers = u.callers ∨ u.readers = [.released]) →
      LSys.Steps (Spec.InnerStep ((exRW [] exReTopic).hwm exReName)) (exReInit [] exReTopic) v :=
    fun h h1 h2 h3 => h.step ⟨⟨h1, fun a b => absurd h2 (by simp [a, b])⟩, h3⟩
  have h0 : LSys.Steps (Spec.InnerStep ((exRW [] exReTopic).hwm exReName)) (exReInit [] exReTopic) _ := .refl
  have h1 := step h0 (.begin (i := 0) (by decide) rfl) (.inl (by decide)) (.inl rfl)
  have h2 := step h1 (.receive (i := 0) (m := exRe ReorgType 0) (by decide) rfl rfl) (.inl (by decide)) (.inl rfl)
  have h3 := step h2 (.warmed (i := 0) (m := exRe ReorgType 0) (by decide) rfl (one_part rfl)) (.inl (by decide)) (.inl rfl)
  have h4 := step h3 (.send (i := 0) (m := exRe ReorgType 0) (by decide) rfl rfl (by decide)) (.inl (by decide)) (.inl rfl)
  have h5 := step h4 (.receive (i := 0) (m := exRe BatchType 1) (by decide) rfl rfl) (.inl (by decide)) (.inl rfl)
  have h6 := step h5 (.send (i := 0) (m := exRe BatchType 1) (by decide) rfl rfl (by decide)) (.inl (by decide)) (.inl rfl)
  have h7 := step h6 (.take (a := .process) (wg := 1) rfl rfl rfl (by simp)) (.inl (by decide)) (.inl rfl)
  have h8 := step h7 (.receive (i := 0) (m := exRe ReorgCompleteType 2) (by decide) rfl rfl) (.inl (by decide)) (.inl rfl)
  have h9 := step h8 (.send (i := 0) (m := exRe ReorgCompleteType 2) (by decide) rfl rfl (by decide)) (.inl (by decide)) (.inl rfl)
  have h10 := step h9 (.take (a := .process) (wg := 1) rfl rfl rfl (by simp)) (.inl (by decide)) (.inl rfl)
  have h11 := step h10 (.take (a := .reorgDone) (wg := 0) rfl rfl rfl (by simp)) (.inl (by decide)) (.inl rfl)
  have h12 := step h11 (.ask (k := 0) rfl) (.inl (by decide)) (.inl rfl)
  have h13 := step h12 (.caughtUp rfl (one_part rfl)) (.inl (by decide)) (.inl rfl)
  have h14 := h13.step ⟨⟨.tick rfl rfl, fun _ _ => ⟨rfl, one_part (by intro m h; cases h)⟩⟩, .inl rfl⟩
  have h15 := step h14 (.reorgsDone rfl rfl) (.inl (by decide)) (.inl rfl)
  have h16 := step h15 (.ready (k := 0) rfl rfl) (.inl (by decide)) (.inl rfl)
  have h17 := step h16 (.quit (k := 0) rfl rfl) (.inl (by decide)) (.inr rfl)
  have h18 := step h17 (.closePart (k := 0) (i := 0) rfl (by decide) (List.Sublist.refl _)) (.inl (by decide)) (.inl rfl)
  have h19 := step h18 (.closeWait (k := 0) (i := 1) rfl (Nat.le_refl 1)) (.inl (by decide)) (.inl rfl)
  have h20 := step h19 (.finish (i := 0) (by decide) rfl rfl rfl) (.inl (by decide)) (.inl rfl)
  have h21 := step h20 (.closeChan (k := 0) rfl (one_part rfl) rfl) (.inl (by decide)) (.inl rfl)
  have h22 := step h21 (.closed (k := 0) rfl (one_part rfl)) (.inl (by decide)) (.inr rfl)
  obtain ⟨l, e, hn⟩ := nsteps_inner (pre := []) h22 h rfl
  have hl : l = [(0, exRe ReorgType 0), (0, exRe BatchType 1), (0, exRe ReorgCompleteType 2)] := by
    have e : [(0, exRe ReorgType 0), (0, exRe BatchType 1), (0, exRe ReorgCompleteType 2)] = [] ++ l := e
    simpa using e.symm
  subst hl
  have same : ∀ {s s' : NSys}, NSys.Step (exRW [] exReTopic) (str "t") s s' → s'.inner = s.inner → Spec.SlowInner (NSys.Step (exRW [] exReTopic) (str "t")) s s' := by
    intro s s' hs e
    refine ⟨hs, fun k n u n' v hu hv hr hr' => ?_⟩
    rw [e, hu] at hv
    simp only [Option.some.injEq, Prod.mk.injEq] at hv
    rw [← hv.2, hr] at hr'; cases hr'
  have hn1 := hn.step (same (.leave (k := 0) rfl rfl rfl) rfl)
  have hn2 := hn1.step (same (.take (m := exReBlock) (a := .process) (wg := 0) rfl rfl rfl (by simp)) rfl)
  exact ⟨_, hn2, rfl, rfl, rfl⟩

end Verif
