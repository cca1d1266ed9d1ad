import Verif.Spec.System
import Verif.Proofs.ConsumerBase
import Verif.Proofs.OrderingRun
/-! The pipeline of the two goroutines. -/
namespace Verif
open Spec

variable {C : Codec} {env : Env} {o : MapOrder}

/-! ## The log only grows -/

/-- `l` is a prefix of what has been sent. -/
def Logged (l : List MPOut) (mp : MP) : Prop := l <+: mp.log

theorem Logged.of_log {l : List MPOut} {mp mp' : MP} (h : Logged l mp) (e : mp'.log = mp.log) : Logged l mp' := by
  unfold Logged; rw [e]; exact h

theorem Logged.append {l x : List MPOut} {mp mp' : MP} (h : Logged l mp) (e : mp'.log = mp.log ++ x) : Logged l mp' := by
  unfold Logged; rw [e]; exact h.trans (List.prefix_append _ _)

theorem Logged.begin {l : List MPOut} {mp : MP} (h : Logged l mp) (m : RMsg) : Logged l (mp.begin env m) :=
  h.of_log (begin_fields env mp m).2.2.1

theorem Logged.finish {l : List MPOut} {mp : MP} (h : Logged l mp) (x : Hash) : Logged l (mp.finish x) := by
  unfold MP.finish
  split
  · exact h
  · split
    · exact h.append rfl
    · exact h

theorem step_sent {self : MP → RMsg → MPResult} {l : List MPOut} (hs : ∀ mp m, Logged l mp → Post true (Logged l) (self mp m))
    (mp : MP) (m : RMsg) (h : Logged l mp) : Post true (Logged l) (MP.step C env self mp m) := by
  unfold MP.step
  have hb := h.begin (env := env) m
  generalize mp.begin env m = mp1 at hb
  simp only []
  split
  · rfl
  split
  · unfold MP.onReorg
    simp only []
    split
    · exact hb.of_log rfl
    · exact hb.append rfl
  split
  · exact hb
  split
  · exact hb
  split
  · unfold MP.onHeader
    split
    · exact hb
    split
    · exact hb
    have h2 : Logged l (mp1.addHeader env m (hashOf m.key) (by assumption)) := hb.append rfl
    simp only []
    revert h2
    generalize mp1.addHeader env m (hashOf m.key) _ = mp2
    intro h2
    split
    · exact h2.finish _
    · have hrep := replay_post (self := self) (af := true) h2 (fun mp m hp _ => hs mp m hp)
        (ms := (env.order.ord (2 * mp2.tick + 1) (by assumption : GMap Bytes RMsg).entries).map Prod.snd)
      revert hrep
      generalize replay _ mp2 _ = r
      intro hrep
      match r, hrep with
      | .error _, hrep => rfl
      | .ok (_, some _), hrep => exact hrep
      | .ok (_, none), hrep => show Logged l (MP.finish _ _); refine Logged.finish ?_ _; exact hrep
  split
  · unfold MP.onSubHeader
    split
    · exact hb.of_log rfl
    simp only []
    split
    · exact hb
    split
    · exact hb.of_log rfl
    split
    · rfl
    · show Logged l (MP.finish _ _); refine Logged.finish ?_ _; exact hb
  · unfold MP.onOther
    split
    · exact hb.of_log rfl
    split
    · rfl
    · show Logged l (MP.finish _ _); refine Logged.finish ?_ _; exact hb

theorem call_sent {mp mp' : MP} {c : Call} (h : mp.call C env c = .ok mp') : mp.log <+: mp'.log := by
  cases c with
  | block pb =>
    simp only [MP.call, Except.ok.injEq] at h
    subst h
    unfold MP.processCompleteBatch
    split <;> exact List.prefix_append _ _
  | msg m =>
    have := step_sent (C := C) (env := env) (l := mp.log)
      (step_sent (C := C) (env := env) (self := fun _ _ => .error .hang) (fun _ _ _ => rfl)) mp m (List.prefix_refl _)
    simp only [MP.call, MP.processMessage] at h
    split at h
    · simp at h
    · rename_i e
      rw [e] at this
      simp only [Except.ok.injEq] at h
      subst h
      exact this

theorem call_log {mp mp' : MP} {c : Call} (h : mp.call C env c = .ok mp') : mp'.log = mp.log ++ mp'.log.drop mp.log.length := by
  obtain ⟨t, ht⟩ := call_sent h
  rw [← ht]; simp

/-! ## Without Reorg messages there are no notifications -/

theorem notes_finish {mp : MP} (h : notesSent mp.log = []) (x : Hash) : notesSent (mp.finish x).log = [] := by
  unfold MP.finish
  split
  · exact h
  · split
    · simp only [notesSent, List.filterMap_append] at *
      simp [h]
    · exact h

theorem notes_parts (C : Codec) (env : Env) :
    XParts C env true (fun m => m.key.headD 0 ≠ ReorgType) (fun mp => notesSent mp.log = []) where
  begin := by intro mp m _ _ h; rw [(begin_fields env mp m).2.2.1]; exact h
  short := .inl rfl
  reorg := by intro mp m hq _ _ ht; exact (hq ht).elim
  add := by
    intro mp m b _ _ h _ _ _ _ _
    simp only [MP.addHeader, notesSent, List.filterMap_append] at *
    simp [h]
  sub := by
    intro mp m _ _ h _ _ _ _
    unfold MP.onSubHeader
    split
    · exact h
    · simp only []
      split
      · exact h
      · split
        · exact h
        · split
          · trivial
          · exact notes_finish (by exact h) _
  other := by
    intro mp m _ _ h _ _ _ _
    unfold MP.onOther
    split
    · exact h
    · split
      · trivial
      · exact notes_finish (by exact h) _
  queued := by intro mp m q e _ _ hB _ hq he; exact ((hB.queue _ _ _ hq he).1).1
  drop := by intro mp m _ _ _ h; exact h
  finish := by intro mp m _ _ _ h; exact notes_finish h _

theorem no_notes {cfg : Config} {mp mp' : MP} {ms : List RMsg} (hn : newMP cfg = .ok mp) (hq : ∀ m ∈ ms, m.key.headD 0 ≠ ReorgType)
    (hr : mp.run C env ms = .ok mp') : notesSent mp'.log = [] := by
  have hl : notesSent mp.log = [] := by
    unfold newMP at hn
    split at hn
    · simp at hn
    · simp only [Except.ok.injEq] at hn; subst hn; rfl
  exact ((notes_parts C env).toParts.run hq ⟨Base.newMP hn, hl⟩ hr).2

/-! ## The invariant -/

/-- Nothing gets lost, doubled or reordered on the way. -/
structure Piped (C : Codec) (env : Env) (o : MapOrder) (cfg : Config) (todo : List Call) (s : Sys) : Prop where
  consists : Consists C env o cfg todo s
  blocks : blocksSent s.mp.log = blocksOf s.ops ++ (s.ch ++ blocksSent s.out)
  notes : notesSent s.mp.log = notesOf s.ops ++ (s.reorgCh ++ notesSent s.out)
  room : s.ch.length ≤ chanCap ∧ s.reorgCh.length ≤ chanCap

theorem blocksSent_append (a b : List MPOut) : blocksSent (a ++ b) = blocksSent a ++ blocksSent b := by simp [blocksSent]
theorem notesSent_append (a b : List MPOut) : notesSent (a ++ b) = notesSent a ++ notesSent b := by simp [notesSent]
theorem blocksOf_append' (a b : List OOp) : blocksOf (a ++ b) = blocksOf a ++ blocksOf b := by simp [blocksOf]
theorem notesOf_append (a b : List OOp) : notesOf (a ++ b) = notesOf a ++ notesOf b := by simp [notesOf]

theorem run_snoc {s s1 s2 : OMP} {ops : List OOp} {op : OOp} (h : s.run o ops = .ok s1) (h' : s1.op o op = .ok s2) :
    s.run o (ops ++ [op]) = .ok s2 := by
  unfold OMP.run at *
  rw [List.foldlM_append, h]
  show ([op].foldlM (OMP.op o) s1) = _
  rw [List.foldlM_cons, h']
  rfl

theorem calls_snoc {mp mp1 mp2 : MP} {cs : List Call} {c : Call} (h : mp.calls C env cs = .ok mp1) (h' : mp1.call C env c = .ok mp2) :
    mp.calls C env (cs ++ [c]) = .ok mp2 := by
  unfold MP.calls at *
  rw [List.foldlM_append, h]
  show ([c].foldlM (MP.call C env) mp1) = _
  rw [List.foldlM_cons, h']
  rfl

theorem Piped.step {cfg : Config} {todo : List Call} {s s' : Sys} (h : Piped C env o cfg todo s) (hs : Sys.Step C env o s s') :
    Piped C env o cfg todo s' := by
  obtain ⟨⟨hc, ⟨m0, hm0, hm⟩, ⟨o0, ho0, ho⟩⟩, hb, hn, hr⟩ := h
  cases hs with
  | @call c cs mp ht hout hcall =>
    have hl := call_log hcall
    refine ⟨⟨?_, ⟨m0, hm0, calls_snoc hm hcall⟩, ⟨o0, ho0, ho⟩⟩, ?_, ?_, hr⟩
    · simp only [hc, ht, List.append_assoc, List.singleton_append]
    · simp only []
      rw [hl, blocksSent_append, hb, hout]
      simp [blocksSent]
    · simp only []
      rw [hl, notesSent_append, hn, hout]
      simp [notesSent]
  | @sendBlock pb rest hout hlen =>
    refine ⟨⟨hc, ⟨m0, hm0, hm⟩, ⟨o0, ho0, ho⟩⟩, ?_, ?_, ?_⟩
    · simp only []; rw [hb, hout]; simp [blocksSent]
    · simp only []; rw [hn, hout]; simp [notesSent]
    · simp only [List.length_append, List.length_singleton]; exact ⟨by omega, hr.2⟩
  | @sendReorg n h rest hout hlen =>
    refine ⟨⟨hc, ⟨m0, hm0, hm⟩, ⟨o0, ho0, ho⟩⟩, ?_, ?_, ?_⟩
    · simp only []; rw [hb, hout]; simp [blocksSent]
    · simp only []; rw [hn, hout]; simp [notesSent]
    · simp only [List.length_append, List.length_singleton]; exact ⟨hr.1, by omega⟩
  | @sendWaiter w rest hout =>
    refine ⟨⟨hc, ⟨m0, hm0, hm⟩, ⟨o0, ho0, ho⟩⟩, ?_, ?_, hr⟩
    · simp only []; rw [hb, hout]; simp [blocksSent]
    · simp only []; rw [hn, hout]; simp [notesSent]
  | @block pb rest omp hch hop =>
    refine ⟨⟨hc, ⟨m0, hm0, hm⟩, ⟨o0, ho0, run_snoc ho hop⟩⟩, ?_, ?_, ?_⟩
    · simp only []; rw [hb, hch, blocksOf_append']; simp [blocksOf]
    · simp only []; rw [hn, notesOf_append]; simp [notesOf]
    · rw [hch] at hr; simp only [List.length_cons] at hr; exact ⟨by simp only []; omega, hr.2⟩
  | @reorg n h rest omp hch hop =>
    refine ⟨⟨hc, ⟨m0, hm0, hm⟩, ⟨o0, ho0, run_snoc ho hop⟩⟩, ?_, ?_, ?_⟩
    · simp only []; rw [hb, blocksOf_append']; simp [blocksOf]
    · simp only []; rw [hn, hch, notesOf_append]; simp [notesOf]
    · rw [hch] at hr; simp only [List.length_cons] at hr; exact ⟨hr.1, by simp only []; omega⟩

theorem Piped.start {cfg : Config} {todo : List Call} {s : Sys} (h : Sys.start cfg todo = .ok s) : Piped C env o cfg todo s := by
  unfold Sys.start at h
  rw [bind_ok] at h
  obtain ⟨mp, hm, h⟩ := h
  rw [bind_ok] at h
  obtain ⟨omp, ho, h⟩ := h
  simp only [Except.ok.injEq] at h
  subst h
  have hl : mp.log = [] := by
    unfold newMP at hm
    split at hm
    · simp at hm
    · simp only [Except.ok.injEq] at hm; subst hm; rfl
  exact ⟨⟨rfl, ⟨mp, hm, rfl⟩, ⟨omp, ho, rfl⟩⟩, by simp [hl, blocksSent, blocksOf], by simp [hl, notesSent, notesOf], by simp [chanCap]⟩

theorem Piped.steps {cfg : Config} {todo : List Call} {s s' : Sys} (h : Piped C env o cfg todo s) (hs : Sys.Steps C env o s s') :
    Piped C env o cfg todo s' := by
  induction hs with
  | refl => exact h
  | step _ h2 ih => exact ih.step h2

/-! ## Progress -/

/-- Remaining work: calls, and sends and receipts. -/
def Sys.work (s : Sys) : Nat × Nat := (s.todo.length, 2 * s.out.length + (s.ch.length + s.reorgCh.length))

theorem Sys.Step.less {s s' : Sys} (h : Sys.Step C env o s s') :
    Prod.Lex (· < ·) (· < ·) s'.work s.work := by
  cases h with
  | call ht _ _ => exact Prod.Lex.left _ _ (by simp [ht])
  | sendBlock hout _ => exact Prod.Lex.right _ (by simp only [hout, List.length_append, List.length_cons, List.length_nil]; omega)
  | sendReorg hout _ => exact Prod.Lex.right _ (by simp only [hout, List.length_append, List.length_cons, List.length_nil]; omega)
  | sendWaiter hout => exact Prod.Lex.right _ (by simp only [hout, List.length_cons]; omega)
  | block hch _ => exact Prod.Lex.right _ (by simp only [hch, List.length_cons]; omega)
  | reorg hch _ => exact Prod.Lex.right _ (by simp only [hch, List.length_cons]; omega)

theorem Sys.progress (s : Sys) (hd : ¬ s.Drained) :
    (∃ s', Sys.Step C env o s s') ∨ Faulty C env o s := by
  cases hch : s.ch with
  | cons pb rest =>
    cases hop : s.omp.handle o pb with
    | ok omp => exact .inl ⟨_, .block hch hop⟩
    | error f => exact .inr (.inr ⟨pb, rest, f, hch, hop⟩)
  | nil =>
    cases hrc : s.reorgCh with
    | cons x rest => exact .inl ⟨_, .reorg (n := x.1) (h := x.2) hrc rfl⟩
    | nil =>
      cases hout : s.out with
      | cons x rest =>
        cases x with
        | waiter w => exact .inl ⟨_, .sendWaiter hout⟩
        | batch pb => exact .inl ⟨_, .sendBlock hout (by rw [hch]; decide)⟩
        | reorg n h => exact .inl ⟨_, .sendReorg hout (by rw [hrc]; decide)⟩
      | nil =>
        cases ht : s.todo with
        | nil => exact (hd ⟨ht, hout, hch, hrc⟩).elim
        | cons c cs =>
          cases hcall : s.mp.call C env c with
          | ok mp => exact .inl ⟨_, .call ht hout hcall⟩
          | error f => exact .inr (.inl ⟨c, cs, f, ht, hcall⟩)

theorem Sys.no_endless (f : Nat → Sys) (h : ∀ n, Sys.Step C env o (f n) (f (n + 1))) : False := by
  have wf : WellFounded (Prod.Lex (α := Nat) (β := Nat) (· < ·) (· < ·)) := (Prod.lex ⟨_, Nat.lt_wfRel.wf⟩ ⟨_, Nat.lt_wfRel.wf⟩).wf
  have : ∀ x, Acc (Prod.Lex (α := Nat) (β := Nat) (· < ·) (· < ·)) x → ∀ n, (f n).work = x → False := by
    intro x hx
    induction hx with
    | intro x _ ih =>
      rintro n rfl
      exact ih _ (h n).less (n + 1) rfl
  exact this _ (wf.apply _) 0 rfl

/-- Every execution can be continued until all is done, or something faults. -/
theorem Sys.drains (s : Sys) (hr : s.ch.length ≤ chanCap ∧ s.reorgCh.length ≤ chanCap) :
    ∃ s', Sys.Steps C env o s s' ∧ (s'.Drained ∨ Faulty C env o s') := by
  have wf : WellFounded (Prod.Lex (α := Nat) (β := Nat) (· < ·) (· < ·)) := (Prod.lex ⟨_, Nat.lt_wfRel.wf⟩ ⟨_, Nat.lt_wfRel.wf⟩).wf
  have : ∀ x, Acc (Prod.Lex (α := Nat) (β := Nat) (· < ·) (· < ·)) x → ∀ s : Sys, s.work = x →
      s.ch.length ≤ chanCap ∧ s.reorgCh.length ≤ chanCap → ∃ s', Sys.Steps C env o s s' ∧ (s'.Drained ∨ Faulty C env o s') := by
    intro x hx
    induction hx with
    | intro x _ ih =>
      rintro s rfl hr
      by_cases hd : s.Drained
      · exact ⟨s, .refl, .inl hd⟩
      · rcases s.progress (C := C) (env := env) (o := o) hd with ⟨s1, h1⟩ | h1
        · have hr1 : s1.ch.length ≤ chanCap ∧ s1.reorgCh.length ≤ chanCap := by
            cases h1 with
            | call _ _ _ => exact hr
            | sendBlock hout hl => simp only [List.length_append, List.length_singleton]; exact ⟨by omega, hr.2⟩
            | sendReorg hout hl => simp only [List.length_append, List.length_singleton]; exact ⟨hr.1, by omega⟩
            | sendWaiter hout => exact hr
            | block hch _ => rw [hch] at hr; simp only [List.length_cons] at hr; exact ⟨by simp only []; omega, hr.2⟩
            | reorg hch _ => rw [hch] at hr; simp only [List.length_cons] at hr; exact ⟨hr.1, by simp only []; omega⟩
          obtain ⟨s2, h2, h3⟩ := ih _ h1.less s1 rfl hr1
          refine ⟨s2, ?_, h3⟩
          clear h3 hr1 ih hd hr
          induction h2 with
          | refl => exact .step .refl h1
          | step _ h ih => exact .step ih h
        · exact ⟨s, .refl, .inr h1⟩
  exact this _ (wf.apply _) s rfl hr

/-! ## More calls may be added -/

/-- The same state with more calls to come. -/
def Sys.more (s : Sys) (cs : List Call) : Sys := { s with todo := s.todo ++ cs }

theorem Sys.Step.more {s s' : Sys} (h : Sys.Step C env o s s') (cs : List Call) : Sys.Step C env o (s.more cs) (s'.more cs) := by
  cases h with
  | call h1 h2 h3 => exact .call (s := s.more cs) (by simp [Sys.more, h1]) h2 h3
  | sendBlock h1 h2 => exact .sendBlock (s := s.more cs) h1 h2
  | sendReorg h1 h2 => exact .sendReorg (s := s.more cs) h1 h2
  | sendWaiter h1 => exact .sendWaiter (s := s.more cs) h1
  | block h1 h2 => exact .block (s := s.more cs) h1 h2
  | reorg h1 h2 => exact .reorg (s := s.more cs) h1 h2

theorem Sys.Steps.more {s s' : Sys} (h : Sys.Steps C env o s s') (cs : List Call) : Sys.Steps C env o (s.more cs) (s'.more cs) := by
  induction h with
  | refl => exact .refl
  | step _ h ih => exact .step ih (h.more cs)

theorem start_more {cfg : Config} {todo cs : List Call} {s : Sys} (h : Sys.start cfg todo = .ok s) : Sys.start cfg (todo ++ cs) = .ok (s.more cs) := by
  unfold Sys.start at h ⊢
  obtain ⟨mp, h1, h⟩ := bind_ok.mp h
  obtain ⟨omp, h2, h⟩ := bind_ok.mp h
  rw [h1, h2]
  cases h
  rfl

end Verif
