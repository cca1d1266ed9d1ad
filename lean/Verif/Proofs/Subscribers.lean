import Verif.Model.Subscribers
import Verif.Proofs.System
import Verif.Proofs.OrderingStep
/-! What the subscribers of the feeds get. -/
namespace Verif
open Spec

variable {C : Codec} {env : Env} {o : MapOrder} {base : List OOut}

/-! ## The log of the ordering layer only grows -/

/-- Only eviction requests were sent after `base`. -/
def LogGrown (base : List OOut) (s : OMP) : Prop := ∃ l, OnlyEvicts l ∧ s.log = base ++ l

/-- Eviction requests and then at most one update were sent after `base`. -/
def LogGrown1 (base : List OOut) (s : OMP) : Prop := ∃ l u, OnlyEvicts l ∧ (u = [] ∨ ∃ a r, u = [OOut.update a r]) ∧ s.log = base ++ l ++ u

theorem LogGrown.refl (s : OMP) : LogGrown s.log s := ⟨[], by simp [OnlyEvicts], by simp⟩

theorem LogGrown.one {s : OMP} (h : LogGrown base s) : LogGrown1 base s := by
  obtain ⟨l, h1, h2⟩ := h
  exact ⟨l, [], h1, .inl rfl, by simpa using h2⟩

theorem LogGrown.shrink {F : Hash → Prop} {s s' : OMP} (h : LogGrown base s) (hs : Shrink F s s') : LogGrown base s' := by
  obtain ⟨l, hl, e⟩ := hs.logs
  obtain ⟨l0, h1, h2⟩ := h
  exact ⟨l0 ++ l, h1.append hl, by rw [e, h2, List.append_assoc]⟩

theorem finAdd_grown (s : OMP) (x : Hash) (h : LogGrown base s) : Out (fun _ => True) (LogGrown base) (s.finAdd o x) :=
  (finAdd_shrink o (F := fun _ => True) s trivial).mono (fun _ _ => trivial) (fun _ h' => h.shrink h')

theorem finishChildren_grown (n : Nat) (s : OMP) (x : Hash) (h : LogGrown base s) :
    Out (fun _ => True) (LogGrown base) (OMP.finishPendingChildrenAux o n s x) := by
  induction n generalizing s x with
  | zero => trivial
  | succ n ih =>
    unfold OMP.finishPendingChildrenAux
    simp only []
    refine (finAdd_grown s x h).bind ?_
    intro s' hs'
    split
    · exact hs'
    · exact Out.foldlM (fun t x _ ht => ih _ _ ht) hs'

theorem finishSiblings_grown (s : OMP) (b : PB) (h : LogGrown base s) : Out (fun _ => True) (LogGrown base) (s.finishSiblings o b) := by
  unfold OMP.finishSiblings
  split
  · exact h
  · refine Out.foldlM ?_ h
    intro t x _ ht
    split
    · exact finishChildren_grown _ _ _ ht
    · exact ht

theorem emitLoop_grown (n : Nat) (s : OMP) (new : List PB) (h : LogGrown base s) :
    Out (fun _ => True) (fun r => LogGrown base r.1) (OMP.emitLoop o n s new) := by
  induction n generalizing s new with
  | zero => trivial
  | succ n ih =>
    unfold OMP.emitLoop
    refine (out_top _).bind ?_
    intro r _
    split
    · exact h
    · simp only []
      split
      · trivial
      · refine (finishSiblings_grown { s with tick := s.tick + 1 } _ h).bind ?_
        intro s' hs'
        exact Out.bind (finAdd_grown _ _ hs') (fun s2 h2 => ih _ _ h2)

theorem prepareEmit_grown (s : OMP) (new old : List PB) (h : LogGrown base s) :
    Out (fun _ => True) (LogGrown1 base) (s.prepareEmit o new old) := by
  unfold OMP.prepareEmit
  refine Out.bind (P := LogGrown base) ?_ (fun s1 h1 => (emitLoop_grown _ _ _ h1).bind (fun r hr => ?_))
  rotate_left
  · obtain ⟨l, h1, h2⟩ := hr
    exact ⟨l, [.update r.2 old], h1, .inr ⟨_, _, rfl⟩, by simp only []; rw [h2]⟩
  unfold OMP.emitStart
  split
  · exact h
  · simp only []
    exact Out.bind (P := LogGrown base) (finishSiblings_grown _ _ (by exact h)) (fun s' h' => finAdd_grown _ _ h')

theorem handleAux_grown (n : Nat) (s : OMP) (b : PB) (reorg : Bool) (h : LogGrown base s) :
    Out (fun _ => True) (LogGrown1 base) (OMP.handleAux o n s b reorg) := by
  induction n generalizing s b reorg with
  | zero => trivial
  | succ n ih =>
    unfold OMP.handleAux
    split
    · exact LogGrown.one (by exact h)
    · unfold OMP.accept
      split
      · exact LogGrown.one (by exact h)
      · split
        · exact prepareEmit_grown _ _ _ (by exact h)
        · split
          · exact prepareEmit_grown _ _ _ (by exact h)
          · split
            · unfold OMP.onConnected
              split
              · refine (out_top _).bind ?_
                intro r _
                split
                · exact prepareEmit_grown _ _ _ (by exact h)
                · exact LogGrown.one (by exact h)
                · exact LogGrown.one (by exact h)
              · refine Out.bind (P := LogGrown base) (finAdd_grown _ _ (by exact h)) ?_
                intro s1 h1
                refine (out_top _).bind ?_
                intro r _
                split
                · exact LogGrown.one (by exact h1)
                · simp only []
                  split
                  · exact LogGrown.one (by exact h1)
                  · exact Out.bind (P := LogGrown1 base) (ih _ _ _ (by exact h1)) (fun s2 h2 => by exact h2)
            · unfold OMP.onUnconnected
              split
              · split
                · exact LogGrown.one (by exact h)
                · exact Out.bind (P := LogGrown base) (finAdd_grown _ _ (by exact h)) (fun s1 h1 => LogGrown.one (by exact h1))
              · exact LogGrown.one (by exact h)

/-- Handling a block sends at most one update. -/
theorem handle_sends {s s' : OMP} {b : PB} (h : s.handle o b = .ok s') : LogGrown1 s.log s' :=
  (handleAux_grown _ _ _ _ (LogGrown.refl s)).ok h

theorem op_log {s s' : OMP} {x : OOp} (h : s.op o x = .ok s') : s'.log = s.log ++ s'.log.drop s.log.length := by
  have : ∃ l, s'.log = s.log ++ l := by
    cases x with
    | block pb =>
      obtain ⟨l, u, _, _, e⟩ := handle_sends h
      exact ⟨l ++ u, by rw [e, List.append_assoc]⟩
    | reorg n k =>
      simp only [OMP.op, Except.ok.injEq] at h
      subst h
      exact ⟨_, rfl⟩
  obtain ⟨l, e⟩ := this
  rw [e, List.drop_left]

/-- Handling anything sends at most one value on each feed. -/
theorem op_one {s s' : OMP} {x : OOp} (h : s.op o x = .ok s') (k : Kind) :
    ((s'.log.drop s.log.length).filter fun x => k.takes (.o x)).length ≤ 1 := by
  cases x with
  | block pb =>
    obtain ⟨l, u, hl, hu, e⟩ := handle_sends h
    rw [e, List.append_assoc, List.drop_left, List.filter_append]
    have : l.filter (fun x => k.takes (.o x)) = [] := by
      rw [List.filter_eq_nil_iff]
      intro y hy
      obtain ⟨n, rfl⟩ := hl y hy
      cases k <;> simp [Kind.takes]
    rw [this, List.nil_append]
    refine Nat.le_trans (List.length_filter_le _ _) ?_
    rcases hu with rfl | ⟨a, r, rfl⟩ <;> simp
  | reorg n y =>
    simp only [OMP.op, Except.ok.injEq] at h
    subst h
    simp only [OMP.handleReorg]
    rw [List.drop_left]
    exact List.length_filter_le _ _

/-- Handling a block sends no notification. -/
theorem run_no_notes {s s' : OMP} {bs : List PB} (h : s.run o (bs.map OOp.block) = .ok s') (h0 : ∀ x ∈ s.log, ∀ n k, x ≠ .reorg n k) :
    ∀ x ∈ s'.log, ∀ n k, x ≠ .reorg n k := by
  induction bs generalizing s with
  | nil =>
    simp only [OMP.run, List.map_nil, List.foldlM_nil, pure, Except.pure, Except.ok.injEq] at h
    subst h
    exact h0
  | cons b bs ih =>
    unfold OMP.run at h
    rw [List.map_cons, List.foldlM_cons] at h
    rw [bind_ok] at h
    obtain ⟨s1, h1, h2⟩ := h
    refine ih h2 ?_
    obtain ⟨l, u, hl, hu, e⟩ := handle_sends h1
    intro x hx n k
    rw [e] at hx
    rcases List.mem_append.mp hx with hx | hx
    · rcases List.mem_append.mp hx with hx | hx
      · exact h0 x hx n k
      · obtain ⟨m, rfl⟩ := hl x hx
        simp
    · rcases hu with rfl | ⟨a, r, rfl⟩
      · simp at hx
      · rw [List.mem_singleton.mp hx]
        simp

/-! ## The invariant -/

/-- A channel has got, in order, what was sent on its feed since it was subscribed. -/
structure SubOk (s : FSys) (x : SubCh) : Prop where
  joined : x.joined ≤ (s.begun x.kind).length
  room : x.buf.length ≤ x.cap
  live : x.live = true → x.got ++ x.buf ++ x.due.toList = ((s.begun x.kind).drop x.joined).filter x.kind.takes
  gone : x.live = false → x.due = none ∧ x.got ++ x.buf <+: ((s.begun x.kind).drop x.joined).filter x.kind.takes

structure FInv (s : FSys) : Prop where
  busy : s.busy = true → s.sys.out ≠ []
  logC : s.begunC ++ (if s.busy then s.sys.out.tail else s.sys.out).map Ev.c = s.sys.mp.log.map Ev.c
  logO : s.begunO ++ s.opq.map Ev.o = s.sys.omp.log.map Ev.o
  one : ∀ k : Kind, (s.opq.filter fun x => k.takes (.o x)).length ≤ 1
  subs : ∀ x ∈ s.subs, SubOk s x

theorem SubOk.of_begun {s s' : FSys} {x : SubCh} (h : SubOk s x) (e : s'.begun x.kind = s.begun x.kind) : SubOk s' x :=
  ⟨by rw [e]; exact h.joined, h.room, by rw [e]; exact h.live, by rw [e]; exact h.gone⟩

theorem SubOk.pre {s : FSys} {x : SubCh} (h : SubOk s x) : x.got ++ x.buf <+: ((s.begun x.kind).drop x.joined).filter x.kind.takes := by
  cases hl : x.live with
  | true => rw [← h.live hl]; exact List.prefix_append _ _
  | false => exact (h.gone hl).2

/-- Starting a send. -/
theorem SubOk.offered {s s' : FSys} {x : SubCh} {e : Ev} (h : SubOk s x) (hd : x.due = none)
    (hb : s'.begun x.kind = s.begun x.kind ++ [e]) : SubOk s' (x.offer e) := by
  have hdrop : (s'.begun x.kind).drop x.joined = (s.begun x.kind).drop x.joined ++ [e] := by
    rw [hb, List.drop_append_of_le_length h.joined]
  unfold SubCh.offer
  split
  · rename_i hc
    simp only [Bool.and_eq_true] at hc
    refine ⟨by simp only []; rw [hb, List.length_append]; have := h.joined; omega, h.room, fun _ => ?_, ?_⟩
    · simp only []
      rw [hdrop, List.filter_append, ← h.live hc.1, hd]
      simp [hc.2]
    · simp only []
      rw [hc.1]
      simp
  · rename_i hc
    refine ⟨by rw [hb, List.length_append]; have := h.joined; omega, h.room, fun hl => ?_, fun hl => ⟨hd, ?_⟩⟩
    · have ht : x.kind.takes e = false := by
        cases ht : x.kind.takes e with
        | false => rfl
        | true => exact (hc (by rw [hl, ht]; rfl)).elim
      rw [hdrop, List.filter_append, ← h.live hl]
      simp [ht]
    · rw [hdrop, List.filter_append]
      exact List.IsPrefix.trans (h.gone hl).2 (List.prefix_append _ _)

theorem takes_side {k : Kind} {e : Ev} (h : k.takes e = true) : k.byCaller = (match e with | .o _ => false | .c _ => true) := by
  cases k <;> cases e <;> rename_i x <;> cases x <;> first | rfl | (exact absurd h (by decide)) | (simp [Kind.takes] at h)

/-- A send of the other goroutine. -/
theorem SubOk.other {s s' : FSys} {x : SubCh} {e : Ev} (h : SubOk s x) (ht : x.kind.takes e = false)
    (hb : s'.begun x.kind = s.begun x.kind) : SubOk s' (x.offer e) := by
  unfold SubCh.offer
  rw [ht]
  simpa using h.of_begun hb

theorem SubOk.begin {s s' : FSys} {e : Ev} (caller : Bool) (hside : ∀ k : Kind, k.takes e = true → k.byCaller = caller)
    (hf : s.Free caller) (hsame : ∀ k : Kind, k.byCaller = caller → s'.begun k = s.begun k ++ [e])
    (hother : ∀ k : Kind, k.byCaller ≠ caller → s'.begun k = s.begun k) (h : ∀ x ∈ s.subs, SubOk s x) :
    ∀ x ∈ s.subs.map (SubCh.offer e), SubOk s' x := by
  intro y hy
  obtain ⟨x, hx, rfl⟩ := List.mem_map.mp hy
  by_cases hc : x.kind.byCaller = caller
  · exact (h x hx).offered (hf x hx hc) (hsame _ hc)
  · refine (h x hx).other ?_ (hother _ hc)
    cases ht : x.kind.takes e with
    | false => rfl
    | true => exact (hc (hside _ ht)).elim

/-- Replacing one channel. -/
theorem subs_replace {s s' : FSys} {l r : List SubCh} {x y : SubCh} (hs : s.subs = l ++ x :: r) (h : ∀ x ∈ s.subs, SubOk s x)
    (hb : ∀ k, s'.begun k = s.begun k) (hy : SubOk s x → SubOk s' y) : ∀ z ∈ l ++ y :: r, SubOk s' z := by
  intro z hz
  rw [hs] at h
  rcases List.mem_append.mp hz with hz | hz
  · exact (h z (by simp [hz])).of_begun (hb _)
  · rcases List.mem_cons.mp hz with rfl | hz
    · exact hy (h x (by simp))
    · exact (h z (by simp [hz])).of_begun (hb _)

theorem FInv.work {s s' : FSys} (h : FInv s) (hs : FSys.Work C env o s s') : FInv s' := by
  have same : ∀ {y : Sys} {q : List OOut} {b : Bool}, ∀ x ∈ s.subs, SubOk { s with sys := y, opq := q, busy := b } x :=
    fun x hx => (h.subs x hx).of_begun rfl
  cases hs with
  | call h1 h2 h3 h4 =>
    cases h1 with
    | call ht hout hcall =>
      refine ⟨fun hb => ?_, ?_, h.logO, h.one, same⟩
      · simp only [] at hb; rw [h3] at hb; simp at hb
      · have hl := call_log hcall
        have hC := h.logC
        simp only [h3, hout] at hC ⊢
        simp at hC
        rw [hl, List.map_append, hC]
        simp
    | sendBlock hout _ => exact (h2 rfl).elim
    | sendReorg hout _ => exact (h2 rfl).elim
    | sendWaiter hout => exact (h2 rfl).elim
    | block _ _ => exact (h2 rfl).elim
    | reorg _ _ => exact (h2 rfl).elim
  | beginC h1 h2 h3 =>
    refine ⟨fun _ => by simp [h1], ?_, h.logO, h.one, ?_⟩
    · have hC := h.logC
      simp only [h2, h1] at hC ⊢
      rw [← hC]
      simp
    · refine SubOk.begin true (fun k hk => takes_side hk) h3 ?_ ?_ h.subs
      · intro k hk; simp [FSys.begun, hk]
      · intro k hk; simp [FSys.begun, hk]
  | accept h1 h2 h3 h4 =>
    have key : ∀ (x : MPOut) (rest : List MPOut) (y : Sys), s.sys.out = x :: rest → y.out = rest → y.mp = s.sys.mp → y.omp = s.sys.omp →
        FInv { s with sys := y, busy := false } := by
      intro x rest y e1 e2 e3 e4
      refine ⟨fun hb => by simp at hb, ?_, ?_, h.one, same⟩
      · have hC := h.logC
        simp only [h4, e1] at hC
        simp only [e2, e3]
        simpa using hC
      · simp only [e4]; exact h.logO
    cases h1 with
    | call ht hout hcall => simp only [] at h2; exact absurd h2 (by simp)
    | sendBlock hout _ => exact key _ _ _ hout rfl rfl rfl
    | sendReorg hout _ => exact key _ _ _ hout rfl rfl rfl
    | sendWaiter hout => exact key _ _ _ hout rfl rfl rfl
    | block _ _ => exact absurd h3 (by simp)
    | reorg _ _ => exact absurd h3 (by simp)
  | op h1 h2 h3 h4 =>
    have key : ∀ (y : Sys) (x : OOp), y.out = s.sys.out → y.mp = s.sys.mp → s.sys.omp.op o x = .ok y.omp →
        FInv { s with sys := y, opq := y.omp.log.drop s.sys.omp.log.length } := by
      intro y x e1 e2 e3
      refine ⟨by simp only [e1]; exact h.busy, by simp only [e1, e2]; exact h.logC, ?_, fun k => op_one e3 k, same⟩
      have hO := h.logO
      rw [h3] at hO
      simp at hO
      simp only []
      rw [hO, ← List.map_append, ← op_log e3]
    cases h1 with
    | call _ _ _ => exact (h2 rfl).elim
    | sendBlock _ _ => exact (h2 rfl).elim
    | sendReorg _ _ => exact (h2 rfl).elim
    | sendWaiter _ => exact (h2 rfl).elim
    | block _ hop => exact key _ _ rfl rfl hop
    | reorg _ hop => exact key _ _ rfl rfl hop
  | beginO h1 h2 =>
    refine ⟨h.busy, h.logC, ?_, fun k => ?_, ?_⟩
    · have hO := h.logO
      rw [h1] at hO
      rw [← hO]
      simp
    · have := h.one k
      rw [h1, List.filter_cons] at this
      split at this
      · simp only [List.length_cons] at this; simp only []; omega
      · exact this
    · refine SubOk.begin false (fun k hk => takes_side hk) h2 ?_ ?_ h.subs
      · intro k hk; simp [FSys.begun, hk]
      · intro k hk; simp [FSys.begun, hk]
  | put h1 h2 h3 =>
    refine ⟨h.busy, h.logC, h.logO, h.one, subs_replace h1 h.subs (fun _ => rfl) (fun hx => ?_)⟩
    refine ⟨hx.joined, by simp only [List.length_append, List.length_singleton]; omega, fun hl => ?_, fun hl => ?_⟩
    · have := hx.live hl
      rw [h2] at this
      simp only [Option.toList_none, List.append_nil]
      rw [← List.append_assoc]
      exact this
    · have := (hx.gone hl).1
      rw [h2] at this
      simp at this
  | meet h1 h2 h3 =>
    refine ⟨h.busy, h.logC, h.logO, h.one, subs_replace h1 h.subs (fun _ => rfl) (fun hx => ?_)⟩
    refine ⟨hx.joined, hx.room, fun hl => ?_, fun hl => ?_⟩
    · have := hx.live hl
      rw [h2, h3] at this
      simp only [Option.toList_none, List.append_nil, h3] at this ⊢
      exact this
    · have := (hx.gone hl).1
      rw [h2] at this
      simp at this
  | take h1 h2 =>
    refine ⟨h.busy, h.logC, h.logO, h.one, subs_replace h1 h.subs (fun _ => rfl) (fun hx => ?_)⟩
    refine ⟨hx.joined, by have := hx.room; rw [h2] at this; simp only [List.length_cons] at this; simp only []; omega, fun hl => ?_, fun hl => ?_⟩
    · have := hx.live hl
      rw [h2] at this
      simp only []
      rw [List.append_assoc _ [_] _, List.singleton_append]
      exact this
    · have := hx.gone hl
      rw [h2] at this
      simp only []
      rw [List.append_assoc _ [_] _, List.singleton_append]
      exact this

theorem FInv.step {s s' : FSys} (h : FInv s) (hs : FSys.Step C env o s s') : FInv s' := by
  cases hs with
  | work hw => exact h.work hw
  | subscribe =>
    rename_i k cap
    refine ⟨h.busy, h.logC, h.logO, h.one, fun x hx => ?_⟩
    rcases List.mem_append.mp hx with hx | hx
    · exact (h.subs x hx).of_begun rfl
    · rw [List.mem_singleton.mp hx]
      refine ⟨?_, by simp [SubCh.fresh], fun _ => ?_, fun hl => by simp [SubCh.fresh] at hl⟩
      · exact Nat.le_refl _
      · show [] = ((s.begun k).drop (s.begun k).length).filter _
        rw [List.drop_length]
        rfl
  | unsubscribe h1 =>
    refine ⟨h.busy, h.logC, h.logO, h.one, subs_replace h1 h.subs (fun _ => rfl) (fun hx => ?_)⟩
    exact ⟨hx.joined, hx.room, fun hl => by simp at hl, fun _ => ⟨rfl, hx.pre⟩⟩

theorem FInv.start {cfg : Config} {todo : List Call} {s : FSys} (h : FSys.start cfg todo = .ok s) :
    FInv s ∧ Sys.start cfg todo = .ok s.sys ∧ s.subs = [] ∧ s.begunC = [] ∧ s.begunO = [] := by
  unfold FSys.start at h
  rw [bind_ok] at h
  obtain ⟨y, hy, h⟩ := h
  simp only [Except.ok.injEq] at h
  subst h
  refine ⟨?_, hy, rfl, rfl, rfl⟩
  unfold Sys.start at hy
  rw [bind_ok] at hy
  obtain ⟨mp, hm, hy⟩ := hy
  rw [bind_ok] at hy
  obtain ⟨omp, ho, hy⟩ := hy
  simp only [Except.ok.injEq] at hy
  subst hy
  have hl : mp.log = [] := by
    unfold newMP at hm
    split at hm
    · simp at hm
    · simp only [Except.ok.injEq] at hm; subst hm; rfl
  have ho : omp.log = [] := by
    unfold newOMP at ho
    split at ho
    · simp at ho
    · simp only [Except.ok.injEq] at ho; subst ho; rfl
  exact ⟨by simp, by simp [hl], by simp [ho], by simp, by simp⟩

theorem FInv.steps {s s' : FSys} (h : FInv s) (hs : FSys.Steps C env o s s') : FInv s' := by
  induction hs with
  | refl => exact h
  | step _ h2 ih => exact ih.step h2

theorem Works.steps {s s' : FSys} (h : FSys.Works C env o s s') : FSys.Steps C env o s s' := by
  induction h with
  | refl => exact .refl
  | step _ h2 ih => exact .step ih (.work h2)

theorem FSteps.trans {a b c : FSys} (h : FSys.Steps C env o a b) (h' : FSys.Steps C env o b c) : FSys.Steps C env o a c := by
  induction h' with
  | refl => exact h
  | step _ h2 ih => exact .step ih h2

theorem Works.trans {a b c : FSys} (h : FSys.Works C env o a b) (h' : FSys.Works C env o b c) : FSys.Works C env o a c := by
  induction h' with
  | refl => exact h
  | step _ h2 ih => exact .step ih h2

/-! ## The two goroutines do what they do without subscribers -/

theorem Work.sys {s s' : FSys} (h : FSys.Work C env o s s') : s'.sys = s.sys ∨ Sys.Step C env o s.sys s'.sys := by
  cases h with
  | call h _ _ _ => exact .inr h
  | accept h _ _ _ => exact .inr h
  | op h _ _ _ => exact .inr h
  | beginC _ _ _ => exact .inl rfl
  | beginO _ _ => exact .inl rfl
  | put _ _ _ => exact .inl rfl
  | meet _ _ _ => exact .inl rfl
  | take _ _ => exact .inl rfl

theorem FStep.sys {s s' : FSys} (h : FSys.Step C env o s s') : s'.sys = s.sys ∨ Sys.Step C env o s.sys s'.sys := by
  cases h with
  | work h => exact Work.sys h
  | subscribe => exact .inl rfl
  | unsubscribe _ => exact .inl rfl

theorem FSteps.sys {s s' : FSys} (h : FSys.Steps C env o s s') : Sys.Steps C env o s.sys s'.sys := by
  induction h with
  | refl => exact .refl
  | step _ h2 ih =>
    rcases FStep.sys h2 with e | e
    · rw [e]; exact ih
    · exact .step ih e

/-! ## Progress -/

/-- What the readers still have to do for one channel. -/
def SubCh.load (x : SubCh) : Nat := 2 * x.due.toList.length + x.buf.length

/-- What the readers still have to do. -/
def subLoad (l : List SubCh) : Nat := (l.map SubCh.load).sum

theorem subLoad_split (l r : List SubCh) (x : SubCh) : subLoad (l ++ x :: r) = subLoad l + x.load + subLoad r := by
  simp [subLoad, Nat.add_assoc]

/-- Remaining work: that of the goroutines, sends to be started, values to be read. -/
def FSys.left (s : FSys) : (Nat × Nat) × Nat × Nat := (s.sys.work, s.opq.length + (if s.busy then 0 else 1), subLoad s.subs)

abbrev lex2 : Nat × Nat → Nat × Nat → Prop := Prod.Lex (· < ·) (· < ·)
abbrev lex4 : (Nat × Nat) × Nat × Nat → (Nat × Nat) × Nat × Nat → Prop := Prod.Lex lex2 lex2

theorem lex4_wf : WellFounded lex4 :=
  (Prod.lex ⟨_, (Prod.lex ⟨_, Nat.lt_wfRel.wf⟩ ⟨_, Nat.lt_wfRel.wf⟩).wf⟩ ⟨_, (Prod.lex ⟨_, Nat.lt_wfRel.wf⟩ ⟨_, Nat.lt_wfRel.wf⟩).wf⟩).wf

theorem Work.less {s s' : FSys} (h : FSys.Work C env o s s') : lex4 s'.left s.left := by
  cases h with
  | call h _ _ _ => exact Prod.Lex.left _ _ h.less
  | accept h _ _ _ => exact Prod.Lex.left _ _ h.less
  | op h _ _ _ => exact Prod.Lex.left _ _ h.less
  | beginC _ h _ => exact Prod.Lex.right _ (Prod.Lex.left _ _ (by simp [h]))
  | beginO h _ => exact Prod.Lex.right _ (Prod.Lex.left _ _ (by simp [h]))
  | put h1 h2 _ =>
    refine Prod.Lex.right _ (Prod.Lex.right _ ?_)
    rw [h1, subLoad_split, subLoad_split]
    simp [SubCh.load, h2]
    omega
  | meet h1 h2 _ =>
    refine Prod.Lex.right _ (Prod.Lex.right _ ?_)
    rw [h1, subLoad_split, subLoad_split]
    simp [SubCh.load, h2]
  | take h1 h2 =>
    refine Prod.Lex.right _ (Prod.Lex.right _ ?_)
    rw [h1, subLoad_split, subLoad_split]
    simp [SubCh.load, h2]

theorem Works.no_endless (f : Nat → FSys) (h : ∀ n, FSys.Work C env o (f n) (f (n + 1))) : False := by
  have : ∀ x, Acc lex4 x → ∀ n, (f n).left = x → False := by
    intro x hx
    induction hx with
    | intro x _ ih =>
      rintro n rfl
      exact ih _ (Work.less (h n)) (n + 1) rfl
  exact this _ (lex4_wf.apply _) 0 rfl

/-- Everything has been called, sent, handled and read. -/
def FSys.Settled (s : FSys) : Prop :=
  s.sys.Drained ∧ s.opq = [] ∧ s.busy = false ∧ ∀ x ∈ s.subs, x.due = none ∧ x.buf = []

theorem FSys.progress {s : FSys} (h : FInv s) (hd : ¬ s.Settled) : (∃ s', FSys.Work C env o s s') ∨ Faulty C env o s.sys := by
  by_cases hq : ∀ x ∈ s.subs, x.due = none ∧ x.buf = []
  · have free : ∀ c, s.Free c := fun c x hx _ => (hq x hx).1
    cases hopq : s.opq with
    | cons x rest => exact .inl ⟨_, .beginO hopq (free _)⟩
    | nil =>
      cases hb : s.busy with
      | false =>
        cases hout : s.sys.out with
        | cons x rest => exact .inl ⟨_, .beginC hout hb (free _)⟩
        | nil =>
          have hnd : ¬ s.sys.Drained := fun hdr => hd ⟨hdr, hopq, hb, hq⟩
          rcases Sys.progress (C := C) (env := env) (o := o) s.sys hnd with ⟨y, hy⟩ | hf
          · left
            cases hy' : hy with
            | call a b c => exact ⟨_, .call hy (by subst hy'; simp) hb (free _)⟩
            | sendBlock a _ => rw [hout] at a; simp at a
            | sendReorg a _ => rw [hout] at a; simp at a
            | sendWaiter a => rw [hout] at a; simp at a
            | block a b => exact ⟨_, .op hy (by subst hy'; simp) hopq (free _)⟩
            | reorg a b => exact ⟨_, .op hy (by subst hy'; simp) hopq (free _)⟩
          · exact .inr hf
      | true =>
        cases hch : s.sys.ch with
        | cons pb rest =>
          cases hop : s.sys.omp.handle o pb with
          | ok omp => exact .inl ⟨_, .op (.block hch hop) (by simp) hopq (free _)⟩
          | error f => exact .inr (.inr ⟨pb, rest, f, hch, hop⟩)
        | nil =>
          cases hrc : s.sys.reorgCh with
          | cons x rest => exact .inl ⟨_, .op (.reorg (n := x.1) (h := x.2) hrc rfl) (by simp) hopq (free _)⟩
          | nil =>
            cases hout : s.sys.out with
            | nil => exact (h.busy hb hout).elim
            | cons x rest =>
              cases x with
              | waiter w => exact .inl ⟨_, .accept (.sendWaiter hout) rfl rfl hb⟩
              | batch pb => exact .inl ⟨_, .accept (.sendBlock hout (by rw [hch]; decide)) rfl rfl hb⟩
              | reorg n k => exact .inl ⟨_, .accept (.sendReorg hout (by rw [hrc]; decide)) rfl rfl hb⟩
  · left
    have : ∃ x, x ∈ s.subs ∧ ¬ (x.due = none ∧ x.buf = []) := by
      apply Classical.byContradiction
      intro hn
      exact hq (fun x hx => Classical.byContradiction (fun hc => hn ⟨x, hx, hc⟩))
    obtain ⟨x, hx, hn⟩ := this
    obtain ⟨l, r, e⟩ := List.append_of_mem hx
    cases hb : x.buf with
    | cons e' b => exact ⟨_, .take e hb⟩
    | nil =>
      cases hdue : x.due with
      | none => exact (hn ⟨hdue, hb⟩).elim
      | some v => exact ⟨_, .meet e hdue hb⟩

theorem FSys.settles {s : FSys} (h : FInv s) : ∃ s', FSys.Works C env o s s' ∧ (s'.Settled ∨ Faulty C env o s'.sys) := by
  have : ∀ x, Acc lex4 x → ∀ s : FSys, s.left = x → FInv s → ∃ s', FSys.Works C env o s s' ∧ (s'.Settled ∨ Faulty C env o s'.sys) := by
    intro x hx
    induction hx with
    | intro x _ ih =>
      rintro s rfl h
      by_cases hd : s.Settled
      · exact ⟨s, .refl, .inl hd⟩
      · rcases FSys.progress (C := C) (env := env) (o := o) h hd with ⟨s1, h1⟩ | h1
        · obtain ⟨s2, h2, h3⟩ := ih _ (Work.less h1) s1 rfl (h.work h1)
          exact ⟨s2, Works.trans (.step .refl h1) h2, h3⟩
        · exact ⟨s, .refl, .inr h1⟩
  exact this _ (lex4_wf.apply _) s rfl h

end Verif
