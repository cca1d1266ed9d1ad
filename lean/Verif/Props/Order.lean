import Verif.Props.System
/-! C76: blocks and reorg notifications travel in two channels. -/
namespace Verif
open Spec

variable {C : Codec} {env : Env} {o : MapOrder}

/-- What the message processor announced, as events for the ordering layer. -/
def announced (l : List MPOut) : List OOp := l.filterMap (fun
  | .batch pb => some (.block pb)
  | .reorg n h => some (.reorg n h)
  | .waiter _ => none)

theorem announced_append (a b : List MPOut) : announced (a ++ b) = announced a ++ announced b := by simp [announced]

/-- Executions all of whose states have a property. -/
inductive Sys.StepsIn (C : Codec) (env : Env) (o : MapOrder) (P : Sys → Prop) (s : Sys) : Sys → Prop
  | refl : P s → StepsIn C env o P s s
  | step {s1 s2 : Sys} : StepsIn C env o P s s1 → Sys.Step C env o s1 s2 → P s2 → StepsIn C env o P s s2

/-- At most one of the channels holds something. -/
def OneChannel (s : Sys) : Prop := s.ch = [] ∨ s.reorgCh = []

theorem StepsIn.steps {P : Sys → Prop} {s s' : Sys} (h : Sys.StepsIn C env o P s s') : Sys.Steps C env o s s' ∧ P s' := by
  induction h with
  | refl h => exact ⟨.refl, h⟩
  | step _ h2 h3 ih => exact ⟨.step ih.1 h2, h3⟩

/-- What is on its way, if at most one channel holds something. -/
def onTheWay (s : Sys) : List OOp := s.ch.map .block ++ s.reorgCh.map (fun e => .reorg e.1 e.2)

theorem order_step {s s' : Sys} (h : announced s.mp.log = s.ops ++ (onTheWay s ++ announced s.out)) (h1 : OneChannel s)
    (hs : Sys.Step C env o s s') (h2 : OneChannel s') : announced s'.mp.log = s'.ops ++ (onTheWay s' ++ announced s'.out) := by
  cases hs with
  | @call c cs mp ht hout hcall =>
    have hl := call_log hcall
    simp only [onTheWay] at h ⊢
    rw [hl, announced_append, h, hout]
    simp [announced]
  | @sendBlock pb rest hout hr =>
    have hne : s.reorgCh = [] := h2.resolve_left (by simp)
    simp only [onTheWay] at h ⊢
    rw [h, hout, hne]
    simp [announced]
  | @sendReorg n x rest hout hr =>
    have hne : s.ch = [] := h2.resolve_right (by simp)
    simp only [onTheWay] at h ⊢
    rw [h, hout, hne]
    simp [announced]
  | @sendWaiter w rest hout =>
    simp only [onTheWay] at h ⊢
    rw [h, hout]
    simp [announced]
  | @block pb rest omp hch hop =>
    simp only [onTheWay] at h ⊢
    rw [h, hch]
    simp
  | @reorg n x rest omp hch hop =>
    have hne : s.ch = [] := h1.resolve_right (by simp [hch])
    simp only [onTheWay] at h ⊢
    rw [h, hch, hne]
    simp

/-- **C76**, the part that holds: in an execution that never has something in both channels, blocks and notifications are handled
in the order in which they were announced. -/
theorem C76_order_partial {cfg : Config} {todo : List Call} {s0 s : Sys} (hn : Sys.start cfg todo = .ok s0)
    (hs : Sys.StepsIn C env o OneChannel s0 s) : s.ops <+: announced s.mp.log := by
  have key : announced s.mp.log = s.ops ++ (onTheWay s ++ announced s.out) := by
    induction hs with
    | refl _ =>
      unfold Sys.start at hn
      rw [bind_ok] at hn
      obtain ⟨mp, hm, h⟩ := hn
      rw [bind_ok] at h
      obtain ⟨omp, ho, h⟩ := h
      simp only [Except.ok.injEq] at h
      subst h
      have hl : mp.log = [] := by
        unfold newMP at hm
        split at hm
        · simp at hm
        · simp only [Except.ok.injEq] at hm; subst hm; rfl
      simp [onTheWay, announced, hl]
    | step h1 h2 h3 ih => exact order_step ih (StepsIn.steps h1).2 h2 h3
  exact ⟨_, key.symm⟩

/-- **C76**, how far the order can be disturbed: at every moment the announcements that have left the message processor are those
handled and at most a hundred blocks and a hundred notifications more, and among the blocks, and among the notifications, the order
is kept. So a notification overtakes at most a hundred blocks, and a block at most a hundred notifications. -/
theorem C76_overtaken_partial {cfg : Config} {todo : List Call} {s0 s : Sys} (hn : Sys.start cfg todo = .ok s0)
    (hs : Sys.Steps C env o s0 s) :
    ∃ sent, sent <+: s.mp.log ∧
      (∃ bs, blocksSent sent = blocksOf s.ops ++ bs ∧ bs.length ≤ 100) ∧
      (∃ ns, notesSent sent = notesOf s.ops ++ ns ∧ ns.length ≤ 100) := by
  have h := (Piped.start hn).steps hs
  have key : ∃ sent, s.mp.log = sent ++ s.out := by
    clear h
    induction hs with
    | refl =>
      unfold Sys.start at hn
      rw [bind_ok] at hn
      obtain ⟨mp, hm, h⟩ := hn
      rw [bind_ok] at h
      obtain ⟨omp, ho, h⟩ := h
      simp only [Except.ok.injEq] at h
      subst h
      exact ⟨mp.log, by simp⟩
    | step _ h2 ih =>
      obtain ⟨sent, e⟩ := ih
      cases h2 with
      | call ht hout hcall => exact ⟨_, call_log hcall⟩
      | @sendBlock pb rest hout _ => exact ⟨sent ++ [.batch pb], by simp only []; rw [e, hout]; simp⟩
      | @sendReorg n x rest hout _ => exact ⟨sent ++ [.reorg n x], by simp only []; rw [e, hout]; simp⟩
      | @sendWaiter w rest hout => exact ⟨sent ++ [.waiter w], by simp only []; rw [e, hout]; simp⟩
      | block _ _ => exact ⟨sent, e⟩
      | reorg _ _ => exact ⟨sent, e⟩
  obtain ⟨sent, e⟩ := key
  refine ⟨sent, ⟨s.out, e.symm⟩, ⟨s.ch, ?_, h.room.1⟩, ⟨s.reorgCh, ?_, h.room.2⟩⟩
  · have := h.blocks
    rw [e, blocksSent_append, ← List.append_assoc] at this
    exact List.append_cancel_right this
  · have := h.notes
    rw [e, notesSent_append, ← List.append_assoc] at this
    exact List.append_cancel_right this

/-! ## A schedule that exchanges the order -/

/-- The next step of a schedule. -/
inductive Sched where
  | call | send | block | reorg

/-- Performing it. -/
def Sys.exec1 (C : Codec) (env : Env) (o : MapOrder) (s : Sys) : Sched → Option Sys
  | .call => match s.todo, s.out with
    | c :: cs, [] => match s.mp.call C env c with
      | .ok mp => some { s with todo := cs, mp := mp, out := mp.log.drop s.mp.log.length, calls := s.calls ++ [c] }
      | .error _ => none
    | _, _ => none
  | .send => match s.out with
    | .batch pb :: rest => if s.ch.length < chanCap then some { s with out := rest, ch := s.ch ++ [pb] } else none
    | .reorg n h :: rest => if s.reorgCh.length < chanCap then some { s with out := rest, reorgCh := s.reorgCh ++ [(n, h)] } else none
    | .waiter _ :: rest => some { s with out := rest }
    | [] => none
  | .block => match s.ch with
    | pb :: rest => match s.omp.op o (.block pb) with
      | .ok omp => some { s with ch := rest, omp := omp, ops := s.ops ++ [.block pb] }
      | .error _ => none
    | [] => none
  | .reorg => match s.reorgCh with
    | (n, h) :: rest => match s.omp.op o (.reorg n h) with
      | .ok omp => some { s with reorgCh := rest, omp := omp, ops := s.ops ++ [.reorg n h] }
      | .error _ => none
    | [] => none

theorem exec1_step {s s' : Sys} {x : Sched} (h : s.exec1 C env o x = some s') : Sys.Step C env o s s' := by
  cases x with
  | call =>
    unfold Sys.exec1 at h
    simp only [] at h
    split at h
    · rename_i c cs ht ho
      split at h
      · rename_i mp hm
        simp only [Option.some.injEq] at h; subst h
        exact .call ht ho hm
      · simp at h
    · simp at h
  | send =>
    unfold Sys.exec1 at h
    simp only [] at h
    split at h
    · rename_i ho
      split at h
      · simp only [Option.some.injEq] at h; subst h; exact .sendBlock ho ‹_›
      · simp at h
    · rename_i ho
      split at h
      · simp only [Option.some.injEq] at h; subst h; exact .sendReorg ho ‹_›
      · simp at h
    · rename_i ho
      simp only [Option.some.injEq] at h; subst h; exact .sendWaiter ho
    · simp at h
  | block =>
    unfold Sys.exec1 at h
    simp only [] at h
    split at h
    · rename_i hc
      split at h
      · rename_i ho
        simp only [Option.some.injEq] at h; subst h; exact .block hc ho
      · simp at h
    · simp at h
  | reorg =>
    unfold Sys.exec1 at h
    simp only [] at h
    split at h
    · rename_i hc
      split at h
      · rename_i ho
        simp only [Option.some.injEq] at h; subst h; exact .reorg hc ho
      · simp at h
    · simp at h

/-- Performing a schedule. -/
def Sys.exec (C : Codec) (env : Env) (o : MapOrder) (s : Sys) (l : List Sched) : Option Sys := l.foldlM (Sys.exec1 C env o) s

theorem exec_steps {s s1 s' : Sys} {l : List Sched} (h1 : Sys.Steps C env o s s1) (h : s1.exec C env o l = some s') : Sys.Steps C env o s s' := by
  induction l generalizing s1 with
  | nil => simp only [Sys.exec, List.foldlM_nil, Option.pure_def, Option.some.injEq] at h; subst h; exact h1
  | cons x l ih =>
    simp only [Sys.exec, List.foldlM_cons, Option.bind_eq_bind, Option.bind_eq_some_iff] at h
    obtain ⟨s2, h2, h3⟩ := h
    exact ih (.step h1 (exec1_step h2)) h3

/-- A block of the example: number, weight, parent and hash. -/
def exPB (n : Int) (w : Nat) (parent hash : Hash) : PB := { bare ⟨exProducer.schema, exBlock, exSubs, []⟩ with number := n, weight := w, parentHash := parent, hash := hash }

/-- A block is announced, then a reorg back to its parent, then another, lighter child of that parent. -/
def exOrderCalls : List Call :=
  [.block (exPB 5 300 (exHash 2) (exHash 1)),
   .msg ⟨ReorgType :: (exHash 2).bytes, Avro.codec.encInt 4, 0, str "t:0"⟩,
   .block (exPB 5 290 (exHash 2) (exHash 3))]

/-- The hashes of the blocks added by the chain updates so far. -/
def addedHashes (s : Sys) : List (List Hash) := s.omp.updates.map (fun u => u.1.map (·.hash))

/-- The hash of a block, or the zero hash for a notification. -/
def tag : OOp → Hash
  | .block pb => pb.hash
  | .reorg _ _ => Hash.zero

/-- The two schedules: each announcement is handled before the next call, or the first two calls are made at once and the notification
is handled first. (`ProcessCompleteBatch` sends two things.) -/
def exInOrder : List Sched := [.call, .send, .send, .block, .call, .send, .reorg, .call, .send, .send, .block]
def exOvertaken : List Sched := [.call, .send, .send, .call, .send, .reorg, .block, .call, .send, .send, .block]

/-- The final state of a schedule. -/
def exFinal (l : List Sched) : Option Sys :=
  match Sys.start exSysCfg exOrderCalls with
  | .ok s0 => s0.exec Avro.codec exEnv .plain l
  | .error _ => none

/-- What is checked of it. -/
def exView (l : List Sched) : Option (List (List Hash) × Bool × List Hash × List Hash) :=
  (exFinal l).map fun s => (addedHashes s, s.todo.isEmpty && s.out.isEmpty && s.ch.isEmpty && s.reorgCh.isEmpty,
    s.ops.map tag, (announced s.mp.log).map tag)

theorem exView_inOrder : exView exInOrder =
    some ([[exHash 1], [exHash 3]], true, [exHash 1, Hash.zero, exHash 3], [exHash 1, Hash.zero, exHash 3]) := by decide +kernel
theorem exView_overtaken : exView exOvertaken =
    some ([[exHash 1]], true, [Hash.zero, exHash 1, exHash 3], [exHash 1, Hash.zero, exHash 3]) := by decide +kernel

theorem exFinal_steps {l : List Sched} {v : List (List Hash) × Bool × List Hash × List Hash} (h : exView l = some v) (hd : v.2.1 = true) :
    ∃ s0 s, Sys.start exSysCfg exOrderCalls = .ok s0 ∧ Sys.Steps Avro.codec exEnv .plain s0 s ∧ s.Drained ∧ addedHashes s = v.1 ∧
      s.ops.map tag = v.2.2.1 ∧ (announced s.mp.log).map tag = v.2.2.2 := by
  unfold exView at h
  rw [Option.map_eq_some_iff] at h
  obtain ⟨s, h1, h2⟩ := h
  unfold exFinal at h1
  split at h1
  · rename_i s0 h0
    subst h2
    simp only [Bool.and_eq_true, List.isEmpty_iff] at hd
    exact ⟨s0, s, h0, exec_steps .refl h1, ⟨hd.1.1.1, hd.1.1.2, hd.1.2, hd.2⟩, rfl, rfl, rfl⟩
  · simp at h1

/-- **C76** refuted, with its consequence: the same calls, both times handled completely, give different chain updates. If the
notification overtakes the first block, the block announced after the reorg is not emitted. -/
theorem C76_refuted : ∃ (cfg : Config) (calls : List Call) (s0 s s' : Sys), Sys.start cfg calls = .ok s0 ∧
    Sys.Steps Avro.codec exEnv .plain s0 s ∧ Sys.Steps Avro.codec exEnv .plain s0 s' ∧ s.Drained ∧ s'.Drained ∧
    addedHashes s = [[exHash 1], [exHash 3]] ∧ addedHashes s' = [[exHash 1]] ∧
    ¬ s'.ops <+: announced s'.mp.log := by
  obtain ⟨s0, s, h0, h1, h2, h3, h4⟩ := exFinal_steps exView_inOrder rfl
  obtain ⟨s0', s', h0', h1', h2', h3', h4', h5'⟩ := exFinal_steps exView_overtaken rfl
  rw [h0] at h0'; simp only [Except.ok.injEq] at h0'; subst h0'
  refine ⟨exSysCfg, exOrderCalls, s0, s, s', h0, h1, h1', h2, h2', h3, h3', ?_⟩
  intro hp
  have := hp.map tag
  rw [h4', h5'] at this
  revert this
  decide

/-- Performing a schedule and checking the states on the way. -/
def Sys.execIn (C : Codec) (env : Env) (o : MapOrder) (s : Sys) : List Sched → Option Sys
  | [] => if s.ch.isEmpty || s.reorgCh.isEmpty then some s else none
  | x :: l => if s.ch.isEmpty || s.reorgCh.isEmpty then (s.exec1 C env o x).bind fun s' => s'.execIn C env o l else none

theorem execIn_steps {s s1 s' : Sys} {l : List Sched} (h0 : Sys.StepsIn C env o OneChannel s s1) (h : s1.execIn C env o l = some s') :
    Sys.StepsIn C env o OneChannel s s' := by
  induction l generalizing s1 with
  | nil =>
    unfold Sys.execIn at h
    split at h
    · simp only [Option.some.injEq] at h; subst h; exact h0
    · simp at h
  | cons x l ih =>
    unfold Sys.execIn at h
    split at h
    · rw [Option.bind_eq_some_iff] at h
      obtain ⟨s2, h2, h3⟩ := h
      have : OneChannel s2 := by
        cases l <;> unfold Sys.execIn at h3 <;> split at h3
        all_goals first | (rename_i hc; simpa [OneChannel] using hc) | simp at h3
      exact ih (.step h0 (exec1_step h2) this) h3
    · simp at h

/-- The hypothesis of `C76_order_partial` is met. -/
example : ∃ s0 s, Sys.start exSysCfg exOrderCalls = .ok s0 ∧ Sys.StepsIn Avro.codec exEnv .plain OneChannel s0 s ∧ s.ops.length = 3 := by
  have h : ((match Sys.start exSysCfg exOrderCalls with
    | .ok s0 => s0.execIn Avro.codec exEnv .plain exInOrder
    | .error _ => none).map fun (s : Sys) => s.ops.length) = some 3 := by decide +kernel
  rw [Option.map_eq_some_iff] at h
  obtain ⟨s, h1, h2⟩ := h
  split at h1
  · rename_i s0 h0
    refine ⟨s0, s, h0, execIn_steps (.refl ?_) h1, h2⟩
    unfold exInOrder Sys.execIn at h1
    split at h1
    · rename_i hc; simpa [OneChannel] using hc
    · simp at h1
  · simp at h1

end Verif
