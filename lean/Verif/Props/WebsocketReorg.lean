import Verif.Props.WebsocketSystem
import Verif.Props.Redelivery
import Verif.Props.Order
/-!
# C96: a websocket reorg reaches the subscribers. C97: in what order
-/
namespace Verif
open Spec

variable {C : Codec} {env : Env} {o : MapOrder} {cfg : Config}

/-! ## Specification -/

/-- The reorgs among the items, with the number of the block as the consumer reads it. -/
def Spec.reorgItems (l : List WMsg) : List (Int × Hash) := l.filterMap fun
  | .reorg n h => some (ofUint64 n, h)
  | _ => none

/-- The reorg notifications that subscribers got. -/
def Spec.noted (log : List OOut) : List (Int × Hash) := log.filterMap fun
  | .reorg n h => some (n, h)
  | _ => none

/-- What the reading goroutine did, as events for the ordering layer. -/
def Spec.asEvents (l : List WOut) : List OOp := l.map fun
  | .block b => .block b.pb
  | .reorg n h => .reorg n h

/-- The event without the channel of the block, which `ProcessCompleteBatch` makes. -/
def Spec.plainOp : OOp → OOp
  | .block pb => .block { pb with waitCh := none }
  | .reorg n h => .reorg n h

/-- Steps in which a reorg is read only when the ordering layer has taken all blocks from its channel. -/
def Spec.WaitsForReorg (C : Codec) (env : Env) (o : MapOrder) (w w' : WSys) : Prop :=
  WSys.Step C env o w w' ∧ ∀ n h ms, w.todo = .reorg n h :: ms → w'.todo ≠ w.todo → w.sys.ch = []

/-- An execution of such steps. -/
inductive Spec.WaitingSteps (C : Codec) (env : Env) (o : MapOrder) (w : WSys) : WSys → Prop
  | refl : WaitingSteps C env o w w
  | step {w1 w2 : WSys} : WaitingSteps C env o w w1 → WaitsForReorg C env o w1 w2 → WaitingSteps C env o w w2

theorem Spec.WaitingSteps.steps {w w' : WSys} (h : WaitingSteps C env o w w') : WSys.Steps C env o w w' := by
  induction h with
  | refl => exact .refl
  | step _ h ih => exact .step ih h.1

/-! ## Notifications of the ordering layer -/

theorem noted_append (a b : List OOut) : noted (a ++ b) = noted a ++ noted b := by simp [noted]

theorem noted_evicts {l : List OOut} (h : OnlyEvicts l) : noted l = [] := by
  unfold noted
  rw [List.filterMap_eq_nil_iff]
  intro x hx
  obtain ⟨n, rfl⟩ := h x hx
  rfl

theorem op_noted {s s' : OMP} {op : OOp} (hI : OInv (fun _ => True) s) (h : s.op o op = .ok s') :
    OInv (fun _ => True) s' ∧ noted s'.log = noted s.log ++ notesOf [op] := by
  cases op with
  | block pb =>
    have hh := op_block_out (N := False) (D := fun _ => True) (fun h => h.elim) hI (fun _ => trivial) h
    refine ⟨hh.inv, ?_⟩
    rcases hh.out with ⟨_, _, l, hl, e⟩ | ⟨a, r, hu⟩
    · rw [e, noted_append, noted_evicts hl]; rfl
    · obtain ⟨l, hl, e⟩ := hu.log
      rw [e, noted_append, noted_append, noted_evicts hl]; simp [noted, notesOf]
  | reorg n x =>
    simp only [OMP.op, Except.ok.injEq] at h
    subst h
    refine ⟨⟨hI.pend, hI.que, hI.ne⟩, ?_⟩
    simp [OMP.handleReorg, noted, notesOf]

theorem run_noted {ops : List OOp} {s s' : OMP} (hI : OInv (fun _ => True) s) (h : s.run o ops = .ok s') :
    noted s'.log = noted s.log ++ notesOf ops := by
  induction ops generalizing s with
  | nil =>
    have h : (Except.ok s : Except Fault OMP) = .ok s' := h
    cases h; simp [notesOf]
  | cons op ops ih =>
    unfold OMP.run at h
    rw [List.foldlM_cons, bind_ok] at h
    obtain ⟨s1, h1, h2⟩ := h
    obtain ⟨a, b⟩ := op_noted hI h1
    rw [ih a h2, b, List.append_assoc, ← notesOf_append]
    rfl

/-! ## The invariant -/

theorem asEvents_append (a b : List WOut) : asEvents (a ++ b) = asEvents a ++ asEvents b := by simp [asEvents]

theorem notesOf_plain (l : List OOp) : notesOf (l.map plainOp) = notesOf l := by
  induction l with
  | nil => rfl
  | cons x l ih =>
    have e : notesOf (x :: l) = notesOf [x] ++ notesOf l := notesOf_append [x] l
    have e' : notesOf ((x :: l).map plainOp) = notesOf [plainOp x] ++ notesOf (l.map plainOp) := notesOf_append [plainOp x] (l.map plainOp)
    rw [e, e', ih]
    cases x <;> rfl

theorem asEvents_handed {l : List WOut} (h : ∀ n x, WOut.reorg n x ∉ l) : asEvents l = (handed l).map OOp.block := by
  induction l with
  | nil => rfl
  | cons x l ih =>
    have := ih (fun n y hy => h n y (by simp [hy]))
    cases x with
    | reorg n y => exact absurd List.mem_cons_self (h n y)
    | block b =>
      show OOp.block b.pb :: asEvents l = _
      rw [this]; rfl

theorem reorgItems_append (a b : List WMsg) : reorgItems (a ++ b) = reorgItems a ++ reorgItems b := by simp [reorgItems]

/-- What holds at all times. `rest` are the blocks of calls not yet made. -/
structure WRInv (o : MapOrder) (cfg : Config) (all : List WMsg) (w : WSys) (rest : List PB) : Prop where
  items : ∃ seen, all = seen ++ (w.todo ++ w.later.flatten) ∧ notesOf (asEvents w.conn.out) = reorgItems seen
  todo : w.sys.todo = rest.map Call.block
  blocks : (blocksOf w.sys.ops ++ (w.sys.ch ++ (blocksSent w.sys.out ++ rest))).map PB.bald = (handed w.conn.out).map PB.bald
  notes : notesOf w.sys.ops = notesOf (asEvents w.conn.out)
  quiet : w.sys.reorgCh = [] ∧ notesSent w.sys.out = []
  omp : ∃ omp0, newOMP cfg = .ok omp0 ∧ omp0.run o w.sys.ops = .ok w.sys.omp

/-- The events handled, those on their way and those to come, are what the reading goroutine did, in its order. -/
def WRTrace (w : WSys) (rest : List PB) : Prop :=
  (w.sys.ops ++ (w.sys.ch ++ (blocksSent w.sys.out ++ rest)).map OOp.block).map plainOp = (asEvents w.conn.out).map plainOp

theorem sys_step_blocks {s s' : Sys} {rest : List PB} (ht : s.todo = rest.map Call.block) (hq : s.reorgCh = [] ∧ notesSent s.out = [])
    (h : Sys.Step C env o s s') : ∃ rest', s'.todo = rest'.map Call.block ∧ (s'.reorgCh = [] ∧ notesSent s'.out = []) ∧
      (s'.ops ++ (s'.ch ++ (blocksSent s'.out ++ rest')).map OOp.block).map plainOp =
        (s.ops ++ (s.ch ++ (blocksSent s.out ++ rest)).map OOp.block).map plainOp ∧
      (blocksOf s'.ops ++ (s'.ch ++ (blocksSent s'.out ++ rest'))).map PB.bald =
        (blocksOf s.ops ++ (s.ch ++ (blocksSent s.out ++ rest))).map PB.bald ∧
      notesOf s'.ops = notesOf s.ops ∧ ∃ ds, s'.ops = s.ops ++ ds ∧ s.omp.run o ds = .ok s'.omp := by
  cases h with
  | @call c cs mp h1 h2 h3 =>
    rw [h1] at ht
    cases rest with
    | nil => simp at ht
    | cons pb rest =>
      simp only [List.map_cons, List.cons.injEq] at ht
      obtain ⟨rfl, rfl⟩ := ht
      simp only [MP.call, Except.ok.injEq] at h3
      subst h3
      obtain ⟨pb', next, w, e1, e2⟩ := complete_eq s.mp pb
      have ed : (s.mp.processCompleteBatch pb).log.drop s.mp.log.length = [.waiter w, .batch pb'] := by rw [e1]; simp
      have eb : pb'.bald = pb.bald := by rw [← e2]; rfl
      refine ⟨rest, rfl, ⟨hq.1, ?_⟩, ?_, ?_, rfl, [], by simp, rfl⟩
      · show notesSent ((s.mp.processCompleteBatch pb).log.drop s.mp.log.length) = []
        rw [ed]; rfl
      · show (s.ops ++ (s.ch ++ (blocksSent ((s.mp.processCompleteBatch pb).log.drop s.mp.log.length) ++ rest)).map OOp.block).map plainOp = _
        rw [ed, h2]
        simp only [blocksSent, List.filterMap_cons, List.filterMap_nil, List.nil_append, List.map_append, List.map_cons, List.cons_append]
        have : plainOp (.block pb') = plainOp (.block pb) := congrArg OOp.block eb
        rw [this]
      · show (blocksOf s.ops ++ (s.ch ++ (blocksSent ((s.mp.processCompleteBatch pb).log.drop s.mp.log.length) ++ rest))).map PB.bald = _
        rw [ed, h2]
        simp only [blocksSent, List.filterMap_cons, List.filterMap_nil, List.nil_append, List.map_append, List.map_cons, List.cons_append, eb]
  | sendBlock h1 h2 =>
    rw [h1] at hq
    refine ⟨rest, ht, ⟨hq.1, hq.2⟩, ?_, ?_, rfl, [], by simp, rfl⟩ <;> simp [h1, blocksSent]
  | sendReorg h1 h2 => rw [h1] at hq; simp [notesSent] at hq
  | sendWaiter h1 =>
    rw [h1] at hq
    refine ⟨rest, ht, ⟨hq.1, hq.2⟩, ?_, ?_, rfl, [], by simp, rfl⟩ <;> simp [h1, blocksSent]
  | @block pb ch omp h1 h2 =>
    refine ⟨rest, ht, hq, ?_, ?_, ?_, [.block pb], rfl, ?_⟩
    · simp [h1]
    · simp [h1, blocksOf]
    · simp [notesOf]
    · unfold OMP.run; rw [List.foldlM_cons, h2]; rfl
  | reorg h1 _ => rw [h1] at hq; simp at hq

theorem omp_run_append {s s1 s2 : OMP} {a b : List OOp} (h1 : s.run o a = .ok s1) (h2 : s1.run o b = .ok s2) : s.run o (a ++ b) = .ok s2 := by
  unfold OMP.run at *
  rw [List.foldlM_append, h1]
  exact h2

theorem wr_step {all : List WMsg} {w w' : WSys} {rest : List PB} (hi : WRInv o cfg all w rest) (hs : WSys.Step C env o w w') :
    ∃ rest', WRInv o cfg all w' rest' ∧
      ((∀ n h ms, w.todo = .reorg n h :: ms → w'.todo ≠ w.todo → w.sys.ch = []) → WRTrace w rest → WRTrace w' rest') := by
  obtain ⟨seen, e1, e2⟩ := hi.items
  obtain ⟨omp0, hn, hr⟩ := hi.omp
  cases hs with
  | inner h =>
    obtain ⟨rest', r1, r2, r3, r4, r5, ds, r6, r7⟩ := sys_step_blocks hi.todo hi.quiet h
    refine ⟨rest', ⟨⟨seen, e1, e2⟩, r1, r4.trans hi.blocks, r5.trans hi.notes, r2, omp0, hn, ?_⟩, fun _ ht => ?_⟩
    · simp only []; rw [r6]; exact omp_run_append hr r7
    · exact r3.trans ht
  | reconnect h1 h2 h3 h4 =>
    refine ⟨rest, ⟨⟨seen, ?_, e2⟩, hi.todo, hi.blocks, hi.notes, hi.quiet, omp0, hn, hr⟩, fun _ ht => ht⟩
    rw [e1, h3, h4]; simp
  | @reorg n x ms mo d omp h1 h2 h3 h4 h5 =>
    have hrest : rest = [] := by have := hi.todo; rw [h1] at this; exact List.map_eq_nil_iff.mp this.symm
    subst hrest
    simp only [WConn.step, Except.ok.injEq] at h4
    subst h4
    refine ⟨[], ⟨⟨seen ++ [.reorg n x], ?_, ?_⟩, hi.todo, ?_, ?_, hi.quiet, omp0, hn, run_snoc hr h5⟩, fun hc ht => ?_⟩
    · rw [e1, h3]; simp
    · show notesOf (asEvents (w.conn.out ++ [_])) = _
      rw [asEvents_append, notesOf_append, e2, reorgItems_append]; rfl
    · show (blocksOf (w.sys.ops ++ [_]) ++ _).map PB.bald = (handed (w.conn.out ++ [_])).map PB.bald
      rw [handed_append, blocksOf_append']
      simpa [handed, blocksOf] using hi.blocks
    · show notesOf (w.sys.ops ++ [_]) = notesOf (asEvents (w.conn.out ++ [_]))
      rw [asEvents_append, notesOf_append, notesOf_append, hi.notes]; rfl
    · have hch := hc n x ms h3 (by simp only [h3]; intro e; have := congrArg List.length e; simp at this)
      unfold WRTrace at ht ⊢
      show ((w.sys.ops ++ [_]) ++ (w.sys.ch ++ (blocksSent w.sys.out ++ [])).map OOp.block).map plainOp = (asEvents (w.conn.out ++ [_])).map plainOp
      rw [hch, h2] at ht ⊢
      rw [asEvents_append, List.map_append (l₁ := asEvents _), ← ht]
      simp [asEvents, blocksSent]
  | @read m ms mo d h1 h2 h3 h4 h5 =>
    obtain ⟨l, e3, hcalm⟩ := wstep_out h5
    have hl := hcalm h4
    have hrest : rest = [] := by have := hi.todo; rw [h1] at this; exact List.map_eq_nil_iff.mp this.symm
    subst hrest
    have hd : d.out.drop w.conn.out.length = l := by rw [e3]; simp
    have hno : notesOf (asEvents l) = [] := by
      rw [asEvents_handed hl]
      simp [notesOf]
    refine ⟨handed l, ⟨⟨seen ++ [m], ?_, ?_⟩, ?_, ?_, ?_, hi.quiet, omp0, hn, hr⟩, fun _ ht => ?_⟩
    · rw [e1, h3]; simp
    · show notesOf (asEvents d.out) = _
      rw [e3, asEvents_append, notesOf_append, e2, reorgItems_append, hno]
      cases m with
      | reorg n x => exact absurd rfl (h4 n x)
      | _ => rfl
    · show (handed (d.out.drop w.conn.out.length)).map Call.block = _
      rw [hd]
    · show (blocksOf w.sys.ops ++ (w.sys.ch ++ (blocksSent w.sys.out ++ handed l))).map PB.bald = (handed d.out).map PB.bald
      rw [e3, handed_append, List.map_append (l₁ := handed w.conn.out), ← hi.blocks]
      simp
    · show notesOf w.sys.ops = notesOf (asEvents d.out)
      rw [e3, asEvents_append, notesOf_append, hno, hi.notes]; simp
    · unfold WRTrace at ht ⊢
      show (w.sys.ops ++ (w.sys.ch ++ (blocksSent w.sys.out ++ handed l)).map OOp.block).map plainOp = (asEvents d.out).map plainOp
      rw [e3, asEvents_append, List.map_append (l₁ := asEvents _), ← ht, asEvents_handed hl]
      simp

variable {num : Int} {first : List WMsg} {later : List (List WMsg)}

theorem wr_start {w0 : WSys} (h0 : WSys.start cfg num first later = .ok w0) : WRInv o cfg (first :: later).flatten w0 [] ∧ WRTrace w0 [] := by
  unfold WSys.start at h0
  obtain ⟨s, h1, h0⟩ := bind_ok.mp h0
  cases h0
  unfold Sys.start at h1
  obtain ⟨mp, h2, h1⟩ := bind_ok.mp h1
  obtain ⟨omp, h3, h1⟩ := bind_ok.mp h1
  cases h1
  exact ⟨⟨⟨[], by simp, rfl⟩, rfl, rfl, rfl, ⟨rfl, rfl⟩, omp, h3, rfl⟩, rfl⟩

theorem wr_steps {w0 w : WSys} (h0 : WSys.start cfg num first later = .ok w0) (hs : WSys.Steps C env o w0 w) :
    ∃ rest, WRInv o cfg (first :: later).flatten w rest := by
  induction hs with
  | refl => exact ⟨[], (wr_start h0).1⟩
  | step _ h ih =>
    obtain ⟨rest, hi⟩ := ih
    obtain ⟨rest', hi', _⟩ := wr_step hi h
    exact ⟨rest', hi'⟩

theorem wr_waiting {w0 w : WSys} (h0 : WSys.start cfg num first later = .ok w0) (hs : WaitingSteps C env o w0 w) :
    ∃ rest, WRInv o cfg (first :: later).flatten w rest ∧ WRTrace w rest := by
  induction hs with
  | refl => exact ⟨[], wr_start h0⟩
  | step _ h ih =>
    obtain ⟨rest, hi, ht⟩ := ih
    obtain ⟨rest', hi', ht'⟩ := wr_step hi h.1
    exact ⟨rest', hi', ht' h.2 ht⟩

/-! ## C96 -/

/-- **C96**, the producer and the reading goroutine: a reorg given to a websocket producer becomes one message; a consumer that reads it calls
`HandleReorg` once, with the number and the hash given to the producer, and does nothing else. -/
theorem C96_message (p : WProducer) (n : Int) (h : Hash) (hn : InInt64 n) : ∃ m, (p.reorg n h).sent = p.sent ++ [m] ∧
    (p.reorg n h).expected = p.expected ∧
    ∀ (c : WConn) (mo mo' : MapOrder), c.step mo (m.json mo') = .ok { c with out := c.out ++ [.reorg n h] } := by
  refine ⟨_, rfl, rfl, fun c mo mo' => ?_⟩
  show Except.ok { c with out := c.out ++ [WOut.reorg (ofUint64 (wireUint64 n)) h] } = _
  rw [ofUint64_wireUint64 hn]

/-- **C96**: under any schedule of the goroutines of a websocket consumer, and whatever it reads over however many connections, the subscribers
have been notified of exactly the reorgs it read so far, in that order, each once; and the blocks the ordering layer has handled are
the first of those the reading goroutine handed on, in that order, each once. -/
theorem C96_notified {w0 w : WSys} (h0 : WSys.start cfg num first later = .ok w0) (hs : WSys.Steps C env o w0 w) :
    (∃ seen, (first :: later).flatten = seen ++ (w.todo ++ w.later.flatten) ∧ noted w.sys.omp.log = reorgItems seen) ∧
    ∃ rest, ((blocksOf w.sys.ops).map (fun pb => { pb with waitCh := none }) ++ rest) = (handed w.conn.out).map (fun pb => { pb with waitCh := none }) := by
  obtain ⟨rest, hi⟩ := wr_steps h0 hs
  obtain ⟨seen, e1, e2⟩ := hi.items
  obtain ⟨omp0, hn, hr⟩ := hi.omp
  have hnew := newOMP_inv (D := fun _ => True) hn
  refine ⟨⟨seen, e1, ?_⟩, (w.sys.ch ++ (blocksSent w.sys.out ++ rest)).map PB.bald, ?_⟩
  · rw [run_noted hnew.1 hr, hnew.2.2.2.2.1, hi.notes, e2]
    rfl
  · have := hi.blocks
    rw [List.map_append] at this
    exact this

/-! ## C97 -/

/-- **C97**, the part that holds: if each reorg is read only when the ordering layer has taken all blocks from its channel, then at any time the ordering
layer has handled, in the same order, the first of the things the reading goroutine did; and all of them when the consumer has come to rest. -/
theorem C97_partial {w0 w : WSys} (h0 : WSys.start cfg num first later = .ok w0) (hs : WaitingSteps C env o w0 w) :
    (w.sys.ops.map plainOp) <+: (asEvents w.conn.out).map plainOp ∧
    (w.sys.Drained → w.sys.ops.map plainOp = (asEvents w.conn.out).map plainOp) ∧
    ∃ omp0, newOMP cfg = .ok omp0 ∧ omp0.run o w.sys.ops = .ok w.sys.omp := by
  obtain ⟨rest, hi, ht⟩ := wr_waiting h0 hs
  unfold WRTrace at ht
  rw [List.map_append] at ht
  refine ⟨⟨_, ht⟩, fun hd => ?_, hi.omp⟩
  have hrest : rest = [] := by have := hi.todo; rw [hd.1] at this; exact List.map_eq_nil_iff.mp this.symm
  rw [hrest, hd.2.1, hd.2.2.1] at ht
  simpa [blocksSent] using ht

/-! ## Executions by schedule -/

/-- What happens next: an item is read, or a step of the ordering layer. -/
inductive WSched where
  | read
  | inner (x : Sched)

/-- Performing it; with `strict`, a reorg is only read when the channel is empty. -/
def WSys.exec1 (strict : Bool) (C : Codec) (env : Env) (o : MapOrder) (w : WSys) : WSched → Option WSys
  | .inner x => (w.sys.exec1 C env o x).map fun s => { w with sys := s }
  | .read => match w.sys.todo, w.sys.out, w.todo with
    | [], [], .reorg n h :: ms => if strict && !w.sys.ch.isEmpty then none else
      match w.conn.step o (.reorg n h), w.sys.omp.op o (.reorg (ofUint64 n) h) with
      | .ok d, .ok omp => some { w with conn := d, todo := ms, sys := { w.sys with omp := omp, ops := w.sys.ops ++ [.reorg (ofUint64 n) h] } }
      | _, _ => none
    | [], [], .batch b :: ms => match w.conn.step o (.batch b) with
      | .ok d => some { w with conn := d, todo := ms, sys := { w.sys with todo := (handed (d.out.drop w.conn.out.length)).map Call.block } }
      | _ => none
    | _, _, _ => none

theorem wexec1_step {strict : Bool} {w w' : WSys} {x : WSched} (h : w.exec1 strict C env o x = some w') :
    WSys.Step C env o w w' ∧ (strict = true → WaitsForReorg C env o w w') := by
  have key : WSys.Step C env o w w' ∧ (strict = true → ∀ n h ms, w.todo = .reorg n h :: ms → w'.todo ≠ w.todo → w.sys.ch = []) := by
    cases x with
    | inner x =>
      simp only [WSys.exec1, Option.map_eq_some_iff] at h
      obtain ⟨s, h1, rfl⟩ := h
      exact ⟨.inner (exec1_step h1), fun _ n h ms _ e => (e rfl).elim⟩
    | read =>
      unfold WSys.exec1 at h
      simp only [] at h
      split at h
      · rename_i h1 h2 h3
        split at h
        · simp at h
        · rename_i hc
          split at h
          · rename_i h4 h5
            simp only [Option.some.injEq] at h
            subst h
            refine ⟨.reorg h1 h2 h3 h4 h5, ?_⟩
            rintro rfl n' h' ms' _ _
            simpa using hc
          · simp at h
      · rename_i h1 h2 h3
        split at h
        · rename_i h4
          simp only [Option.some.injEq] at h
          subst h
          refine ⟨.read h1 h2 h3 (by intro n h e; cases e) h4, ?_⟩
          intro _ n h ms e
          rw [h3] at e
          cases e
        · simp at h
      · simp at h
  exact ⟨key.1, fun hs => ⟨key.1, key.2 hs⟩⟩

/-- Performing a schedule. -/
def WSys.exec (strict : Bool) (C : Codec) (env : Env) (o : MapOrder) (w : WSys) (l : List WSched) : Option WSys := l.foldlM (WSys.exec1 strict C env o) w

theorem wexec_steps {strict : Bool} {w w1 w' : WSys} {l : List WSched} (h1 : WSys.Steps C env o w w1) (h2 : strict = true → WaitingSteps C env o w w1)
    (h : w1.exec strict C env o l = some w') : WSys.Steps C env o w w' ∧ (strict = true → WaitingSteps C env o w w') := by
  induction l generalizing w1 with
  | nil => simp only [WSys.exec, List.foldlM_nil, Option.pure_def, Option.some.injEq] at h; subst h; exact ⟨h1, h2⟩
  | cons x l ih =>
    simp only [WSys.exec, List.foldlM_cons, Option.bind_eq_bind, Option.bind_eq_some_iff] at h
    obtain ⟨w2, h3, h4⟩ := h
    obtain ⟨h5, h6⟩ := wexec1_step h3
    exact ih (.step h1 h5) (fun hs => .step (h2 hs) (h6 hs)) h4

theorem wsys_at_rest {w : WSys} (hd : w.sys.Drained) (ht : w.todo = []) (hl : w.later = []) : ∀ w', ¬ WSys.Step C env o w w' := by
  intro w' h
  obtain ⟨h1, h2, h3, h4⟩ := hd
  cases h with
  | read _ _ e => rw [ht] at e; cases e
  | reorg _ _ e => rw [ht] at e; cases e
  | reconnect _ _ _ e => rw [hl] at e; cases e
  | inner h =>
    cases h with
    | call e => rw [h1] at e; cases e
    | sendBlock e => rw [h2] at e; cases e
    | sendReorg e => rw [h2] at e; cases e
    | sendWaiter e => rw [h2] at e; cases e
    | block e => rw [h3] at e; cases e
    | reorg e => rw [h4] at e; cases e

/-! ## C97 is false of the code -/

/-- A batch message without sub-batches. -/
def exWsPlain (hash parent number : Nat) (weight : Int) : WMsg :=
  .batch ⟨number, weight, exHash hash, exHash parent, GMap.empty, [], GMap.empty⟩

/-- Block 2 on block 1, a reorg to block 1, block 3 on block 1. -/
def exWsReorg : List WMsg := [exWsPlain 2 1 11 20, .reorg 10 (exHash 1), exWsPlain 3 1 11 20]

/-- Each item is handled before the next is read. -/
def exWsInOrder : List WSched :=
  [.read, .inner .call, .inner .send, .inner .send, .inner .block, .read, .read, .inner .call, .inner .send, .inner .send, .inner .block]

/-- The reorg is read while block 2 waits in the channel. -/
def exWsOvertaken : List WSched :=
  [.read, .inner .call, .inner .send, .inner .send, .read, .inner .block, .read, .inner .call, .inner .send, .inner .send, .inner .block]

/-- What is checked of the final state: the head of the subscribers, the head after the events in order, and that all is done. -/
def exWsView (strict : Bool) (l : List WSched) : Option (Hash × Hash × List (Int × Hash) × Bool) :=
  match WSys.start exOCfg 10 exWsReorg [] with
  | .error _ => none
  | .ok w0 => (w0.exec strict Avro.codec exEnv .plain l).bind fun w => match (omp0 exOCfg).run .plain (asEvents w.conn.out) with
    | .error _ => none
    | .ok s => some (headAfter exOCfg.lastHash w.sys.omp.log, headAfter exOCfg.lastHash s.log, noted w.sys.omp.log, w.sys.todo.isEmpty && w.sys.out.isEmpty &&
      w.sys.ch.isEmpty && w.sys.reorgCh.isEmpty && w.todo.isEmpty && w.later.isEmpty)

theorem exWsView_inOrder : exWsView true exWsInOrder = some (exHash 3, exHash 3, [(10, exHash 1)], true) := by decide +kernel
theorem exWsView_overtaken : exWsView false exWsOvertaken = some (exHash 2, exHash 3, [(10, exHash 1)], true) := by decide +kernel

theorem exWsView_steps {strict : Bool} {l : List WSched} {a b : Hash} {ns : List (Int × Hash)} (h : exWsView strict l = some (a, b, ns, true)) :
    ∃ w0 w s, WSys.start exOCfg 10 exWsReorg [] = .ok w0 ∧ WSys.Steps Avro.codec exEnv .plain w0 w ∧
      (strict = true → WaitingSteps Avro.codec exEnv .plain w0 w) ∧ w.sys.Drained ∧ (∀ w', ¬ WSys.Step Avro.codec exEnv .plain w w') ∧
      (omp0 exOCfg).run .plain (asEvents w.conn.out) = .ok s ∧ headAfter exOCfg.lastHash w.sys.omp.log = a ∧ headAfter exOCfg.lastHash s.log = b ∧
      noted w.sys.omp.log = ns := by
  unfold exWsView at h
  split at h
  · cases h
  · rename_i w0 h0
    rw [Option.bind_eq_some_iff] at h
    obtain ⟨w, h1, h2⟩ := h
    split at h2
    · cases h2
    · rename_i s hs
      simp only [Option.some.injEq, Prod.mk.injEq, Bool.and_eq_true, List.isEmpty_iff] at h2
      obtain ⟨e1, e2, e3, ⟨⟨⟨⟨d1, d2⟩, d3⟩, d4⟩, d5⟩, d6⟩ := h2
      obtain ⟨s1, s2⟩ := wexec_steps .refl (fun _ => .refl) h1
      exact ⟨w0, w, s, h0, s1, s2, ⟨d1, d2, d3, d4⟩, wsys_at_rest ⟨d1, d2, d3, d4⟩ d5 d6, hs, e1, e2, e3⟩

/-- **C97** refuted: the reorg overtakes block 2, which waits in the channel. The subscribers end on block 2, which the reorg abandoned;
handled in order the events lead to block 3. -/
theorem C97_refuted : ¬ ∀ (C : Codec) (env : Env) (o : MapOrder) (cfg : Config) (num : Int) (items : List WMsg) (w0 w : WSys) (omp1 omp : OMP),
    WSys.start cfg num items [] = .ok w0 → WSys.Steps C env o w0 w → (∀ w', ¬ WSys.Step C env o w w') →
    newOMP cfg = .ok omp1 → omp1.run o (asEvents w.conn.out) = .ok omp →
    headAfter cfg.lastHash w.sys.omp.log = headAfter cfg.lastHash omp.log := by
  intro h
  obtain ⟨w0, w, s, h0, h1, _, _, h2, h3, h4, h5, _⟩ := exWsView_steps exWsView_overtaken
  have := h _ _ _ _ _ _ _ _ _ _ h0 h1 h2 (omp0_new exOCfg (by decide)) h3
  rw [h4, h5] at this
  revert this
  decide

/-- C96: the notification reaches the subscribers also when it overtakes a block. -/
example : ∃ w0 w, WSys.start exOCfg 10 exWsReorg [] = .ok w0 ∧ WSys.Steps Avro.codec exEnv .plain w0 w ∧ noted w.sys.omp.log = [(10, exHash 1)] := by
  obtain ⟨w0, w, s, h0, h1, _, _, _, _, _, _, h6⟩ := exWsView_steps exWsView_overtaken
  exact ⟨w0, w, h0, h1, h6⟩

/-- C96: a number in the range of `int64`. -/
example : InInt64 (-7) := by decide

/-- The hypotheses of C97_partial are met, and the subscribers end on block 3. -/
example : ∃ w0 w, WSys.start exOCfg 10 exWsReorg [] = .ok w0 ∧ WaitingSteps Avro.codec exEnv .plain w0 w ∧ w.sys.Drained ∧
    headAfter exOCfg.lastHash w.sys.omp.log = exHash 3 := by
  obtain ⟨w0, w, s, h0, _, h1, h2, _, _, h4, _⟩ := exWsView_steps exWsView_inOrder
  exact ⟨w0, w, h0, h1 rfl, h2, h4⟩

end Verif
