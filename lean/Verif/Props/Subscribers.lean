import Verif.Proofs.Subscribers
import Verif.Props.Forks
import Verif.Props.Order
/-!
# C146: the subscribers of the feeds

Executions are arbitrary interleavings of the two goroutines and any number of subscribers, of any kind and capacity, that are subscribed and
unsubscribed at any time and read at any pace (`FSys.Steps`).
-/
namespace Verif

/-! ## What is claimed -/

namespace Spec

/-- The values sent by the goroutine that serves channels of this kind, in order. -/
def sendsFor (s : Sys) : Kind → List Ev
  | .updates | .reorgs => s.omp.log.map Ev.o
  | .blocks | .waiters => s.mp.log.map Ev.c

/-- The values a channel of this kind is for. -/
def meant : Kind → Ev → Bool
  | .updates, .o (.update _ _) => true
  | .updates, _ => false
  | .reorgs, .o (.reorg _ _) => true
  | .reorgs, _ => false
  | .blocks, .c (.batch _) => true
  | .blocks, _ => false
  | .waiters, .c (.waiter _) => true
  | .waiters, _ => false

/-- The values sent for the channel since it was subscribed. -/
def addressed (s : Sys) (x : SubCh) : List Ev := ((sendsFor s x.kind).drop x.joined).filter (meant x.kind)

/-- The updates among what was read. -/
def updatesRead (l : List Ev) : List OOut := l.filterMap (fun
  | .o x => some x
  | .c _ => none)

/-- Steps during which the channel stays as it is: it is not read, and neither accepts anything nor is unsubscribed. -/
inductive Unread (C : Codec) (env : Env) (o : MapOrder) (x : SubCh) (s : FSys) : FSys → Prop
  | refl : x ∈ s.subs → Unread C env o x s s
  | step {s1 s2 : FSys} : Unread C env o x s s1 → FSys.Step C env o s1 s2 → x ∈ s2.subs → Unread C env o x s s2

/-- Steps in which, whenever a call starts, the requests acted on in the calls before had been sent. -/
inductive CausalFSteps (C : Codec) (env : Env) (o : MapOrder) (s : FSys) : FSys → Prop
  | refl : CausalFSteps C env o s s
  | step {s1 s2 : FSys} : CausalFSteps C env o s s1 → FSys.Step C env o s1 s2 → (s2.sys.calls ≠ s1.sys.calls → Heard env s1.sys) →
      CausalFSteps C env o s s2

end Spec
open Spec

variable {C : Codec} {env : Env} {o : MapOrder}

theorem takes_meant (k : Kind) : k.takes = meant k := by
  funext e
  cases k <;> cases e <;> rename_i x <;> cases x <;> rfl

/-- What has been started and what has not. -/
theorem FInv.sends {s : FSys} (h : FInv s) (k : Kind) :
    ∃ later, sendsFor s.sys k = s.begun k ++ later ∧ (s.Settled → later = []) ∧ (k.byCaller = false → later = s.opq.map Ev.o) := by
  cases k with
  | updates => exact ⟨s.opq.map Ev.o, h.logO.symm, fun hs => by rw [hs.2.1]; rfl, fun _ => rfl⟩
  | reorgs => exact ⟨s.opq.map Ev.o, h.logO.symm, fun hs => by rw [hs.2.1]; rfl, fun _ => rfl⟩
  | blocks => exact ⟨_, h.logC.symm, fun hs => by rw [hs.2.2.1, hs.1.2.1]; rfl, fun hc => by simp [Kind.byCaller] at hc⟩
  | waiters => exact ⟨_, h.logC.symm, fun hs => by rw [hs.2.2.1, hs.1.2.1]; rfl, fun hc => by simp [Kind.byCaller] at hc⟩

theorem FInv.addressed {s : FSys} (h : FInv s) {x : SubCh} (hx : x ∈ s.subs) :
    ∃ later, Spec.addressed s.sys x = ((s.begun x.kind).drop x.joined).filter x.kind.takes ++ later ∧ (s.Settled → later = []) ∧
      (x.kind.byCaller = false → later.length ≤ 1) := by
  obtain ⟨later, h1, h2, h3⟩ := h.sends x.kind
  refine ⟨later.filter x.kind.takes, ?_, fun hs => by rw [h2 hs]; rfl, fun hc => ?_⟩
  · unfold Spec.addressed
    rw [h1, List.drop_append_of_le_length (h.subs x hx).joined, List.filter_append, takes_meant]
  · rw [h3 hc, List.filter_map, List.length_map]
    exact h.one x.kind

section
variable {cfg : Config} {todo : List Call} {s0 s : FSys}

theorem start_inv (hn : FSys.start cfg todo = .ok s0) (hs : FSys.Steps C env o s0 s) : FInv s := (FInv.start hn).1.steps hs

/-- **C146**, the goroutines: whatever the subscribers do, the two goroutines go through states they can go through without them, so all that was
proved of them (C43, C44, C76, C86, C145 and others) holds. -/
theorem C146_goroutines (hn : FSys.start cfg todo = .ok s0) (hs : FSys.Steps C env o s0 s) :
    Sys.start cfg todo = .ok s0.sys ∧ Sys.Steps C env o s0.sys s.sys :=
  ⟨(FInv.start hn).2.1, FSteps.sys hs⟩

/-- **C146**, safety: what has been read from a channel is, in order, the first so many of the values sent on its feed since it was
subscribed: none is left out, doubled or exchanged, however many other subscribers there are. -/
theorem C146_in_order (hn : FSys.start cfg todo = .ok s0) (hs : FSys.Steps C env o s0 s) {x : SubCh} (hx : x ∈ s.subs) :
    x.got <+: addressed s.sys x := by
  have h := start_inv hn hs
  obtain ⟨later, e, _⟩ := h.addressed hx
  rw [e]
  exact List.IsPrefix.trans (List.prefix_append _ x.buf) (List.IsPrefix.trans (h.subs x hx).pre (List.prefix_append _ _))

/-- **C146**, completeness: when all is done, every channel that was not unsubscribed has got all of them. -/
theorem C146_all (hn : FSys.start cfg todo = .ok s0) (hs : FSys.Steps C env o s0 s) (hd : s.Settled) {x : SubCh} (hx : x ∈ s.subs)
    (hl : x.live = true) : x.got = addressed s.sys x := by
  have h := start_inv hn hs
  obtain ⟨later, e, hlater, _⟩ := h.addressed hx
  have := (h.subs x hx).live hl
  rw [(hd.2.2.2 x hx).1, (hd.2.2.2 x hx).2] at this
  rw [e, hlater hd, ← this]
  simp

/-- **C146**, progress: as long as the subscribers keep reading, nothing goes on forever, and what is not done can be continued or is about to
fault: neither goroutine waits for the other or for a subscriber. -/
theorem C146_completes (hn : FSys.start cfg todo = .ok s0) :
    (∀ f : Nat → FSys, ¬ ∀ n, FSys.Work C env o (f n) (f (n + 1))) ∧
    ∀ s, FSys.Steps C env o s0 s →
      (s.Settled ∨ Faulty C env o s.sys ∨ ∃ s', FSys.Work C env o s s') ∧
      ∃ s', FSys.Works C env o s s' ∧ (s'.Settled ∨ Faulty C env o s'.sys) := by
  refine ⟨fun f h => Works.no_endless f h, fun s hs => ?_⟩
  have h := start_inv hn hs
  refine ⟨?_, FSys.settles h⟩
  by_cases hd : s.Settled
  · exact .inl hd
  · rcases FSys.progress (C := C) (env := env) (o := o) h hd with h | h
    · exact .inr (.inr h)
    · exact .inr (.inl h)

/-- **C146**, pace: no subscriber of a feed gets ahead of another by more than the buffer of the other and the value being sent. -/
theorem C146_pace (hn : FSys.start cfg todo = .ok s0) (hs : FSys.Steps C env o s0 s) {x y : SubCh} (hx : x ∈ s.subs) (hy : y ∈ s.subs)
    (hk : x.kind = y.kind) (hl : x.live = true) (hj : x.joined ≤ y.joined) : y.got.length ≤ x.got.length + x.cap + 1 := by
  have h := start_inv hn hs
  have h1 := congrArg List.length ((h.subs x hx).live hl)
  have h2 := (h.subs y hy).pre.length_le
  have h3 := (h.subs x hx).room
  have h4 : (((s.begun y.kind).drop y.joined).filter y.kind.takes).length ≤ (((s.begun x.kind).drop x.joined).filter x.kind.takes).length := by
    rw [hk]
    have : y.joined = x.joined + (y.joined - x.joined) := by omega
    rw [this, ← List.drop_drop]
    exact (List.Sublist.filter _ (List.drop_sublist _ _)).length_le
  have h5 : x.due.toList.length ≤ 1 := by cases x.due <;> simp
  simp only [List.length_append] at h1 h2
  omega

/-- **C146**, pace of the ordering goroutine: it is never ahead of a subscriber by more than the subscriber's buffer, the value being sent,
and one more. -/
theorem C146_ahead (hn : FSys.start cfg todo = .ok s0) (hs : FSys.Steps C env o s0 s) {x : SubCh} (hx : x ∈ s.subs) (hl : x.live = true)
    (hk : x.kind = .updates ∨ x.kind = .reorgs) : (addressed s.sys x).length ≤ x.got.length + x.cap + 2 := by
  have h := start_inv hn hs
  obtain ⟨later, e, _, hlen⟩ := h.addressed hx
  have h1 := congrArg List.length ((h.subs x hx).live hl)
  have h3 := (h.subs x hx).room
  have h5 : x.due.toList.length ≤ 1 := by cases x.due <;> simp
  have h6 := hlen (by rcases hk with hk | hk <;> rw [hk] <;> rfl)
  rw [e]
  simp only [List.length_append] at h1 ⊢
  omega

/-- **C146**, a subscriber that does not read: while a value sent by the ordering goroutine is not accepted by one channel, no further block or
notification is handled and no other subscriber of the ordering goroutine is sent anything; the caller's goroutine can go on until
100 blocks and 100 notifications wait to be handled. -/
theorem C146_stalled (hn : FSys.start cfg todo = .ok s0) (hs : FSys.Steps C env o s0 s) {x : SubCh} {e : Ev} (hdue : x.due = some e)
    (hk : x.kind = .updates ∨ x.kind = .reorgs) {s' : FSys} (hu : Unread C env o x s s') :
    s'.sys.ops = s.sys.ops ∧ s'.sys.omp = s.sys.omp ∧ s'.begunO = s.begunO ∧
    (∃ waiting, blocksSent s'.sys.mp.log = blocksOf s.sys.ops ++ waiting ++ blocksSent s'.sys.out ∧ waiting.length ≤ 100) ∧
    ∃ waiting, notesSent s'.sys.mp.log = notesOf s.sys.ops ++ waiting ++ notesSent s'.sys.out ∧ waiting.length ≤ 100 := by
  have hside : x.kind.byCaller = false := by rcases hk with hk | hk <;> rw [hk] <;> rfl
  have key : FSys.Steps C env o s0 s' ∧ x ∈ s'.subs ∧ s'.sys.ops = s.sys.ops ∧ s'.sys.omp = s.sys.omp ∧ s'.begunO = s.begunO := by
    induction hu with
    | refl hx => exact ⟨hs, hx, rfl, rfl, rfl⟩
    | @step s1 s2 _ h2 hx ih =>
      obtain ⟨i1, i2, i3, i4, i5⟩ := ih
      refine ⟨.step i1 h2, hx, ?_⟩
      have busy : ¬ s1.Free false := fun hf => by
        have := hf x i2 hside
        rw [hdue] at this
        simp at this
      cases h2 with
      | subscribe => exact ⟨i3, i4, i5⟩
      | unsubscribe _ => exact ⟨i3, i4, i5⟩
      | work hw =>
        cases hw with
        | call a b c d =>
          cases a with
          | call _ _ _ => exact ⟨i3, i4, i5⟩
          | sendBlock _ _ => exact ⟨i3, i4, i5⟩
          | sendReorg _ _ => exact ⟨i3, i4, i5⟩
          | sendWaiter _ => exact ⟨i3, i4, i5⟩
          | block _ _ => exact (b rfl).elim
          | reorg _ _ => exact (b rfl).elim
        | beginC _ _ _ => exact ⟨i3, i4, i5⟩
        | accept a b c d =>
          cases a with
          | call _ _ _ => exact ⟨i3, i4, i5⟩
          | sendBlock _ _ => exact ⟨i3, i4, i5⟩
          | sendReorg _ _ => exact ⟨i3, i4, i5⟩
          | sendWaiter _ => exact ⟨i3, i4, i5⟩
          | block _ _ => exact absurd c (by simp)
          | reorg _ _ => exact absurd c (by simp)
        | op _ _ _ hf => exact (busy hf).elim
        | beginO _ hf => exact (busy hf).elim
        | put _ _ _ => exact ⟨i3, i4, i5⟩
        | meet _ _ _ => exact ⟨i3, i4, i5⟩
        | take _ _ => exact ⟨i3, i4, i5⟩
  obtain ⟨k1, k2, k3, k4, k5⟩ := key
  have hp := (Piped.start (C := C) (env := env) (o := o) (C146_goroutines hn k1).1).steps (C146_goroutines hn k1).2
  refine ⟨k3, k4, k5, ⟨s'.sys.ch, ?_, hp.room.1⟩, ⟨s'.sys.reorgCh, ?_, hp.room.2⟩⟩
  · rw [hp.blocks, k3, List.append_assoc]
  · rw [hp.notes, k3, List.append_assoc]

/-- **C146**, a subscriber to blocks or waiters that does not read: while a value is not accepted by one channel, `ProcessMessage` does not
return, and nothing else is sent to such subscribers. -/
theorem C146_stalled_caller {x : SubCh} {e : Ev} (hdue : x.due = some e) (hk : x.kind = .blocks ∨ x.kind = .waiters) {s' : FSys}
    (hu : Unread C env o x s s') : s'.sys.calls = s.sys.calls ∧ s'.sys.mp = s.sys.mp ∧ s'.begunC = s.begunC := by
  have hside : x.kind.byCaller = true := by rcases hk with hk | hk <;> rw [hk] <;> rfl
  have key : x ∈ s'.subs ∧ s'.sys.calls = s.sys.calls ∧ s'.sys.mp = s.sys.mp ∧ s'.begunC = s.begunC := by
    induction hu with
    | refl hx => exact ⟨hx, rfl, rfl, rfl⟩
    | @step s1 s2 _ h2 hx ih =>
      obtain ⟨i2, i3, i4, i5⟩ := ih
      refine ⟨hx, ?_⟩
      have busy : ¬ s1.Free true := fun hf => by
        have := hf x i2 hside
        rw [hdue] at this
        simp at this
      cases h2 with
      | subscribe => exact ⟨i3, i4, i5⟩
      | unsubscribe _ => exact ⟨i3, i4, i5⟩
      | work hw =>
        cases hw with
        | call _ _ _ hf => exact (busy hf).elim
        | beginC _ _ hf => exact (busy hf).elim
        | accept a b c d =>
          cases a with
          | call _ _ _ => exact absurd b (by simp)
          | sendBlock _ _ => exact ⟨i3, i4, i5⟩
          | sendReorg _ _ => exact ⟨i3, i4, i5⟩
          | sendWaiter _ => exact ⟨i3, i4, i5⟩
          | block _ _ => exact ⟨i3, i4, i5⟩
          | reorg _ _ => exact ⟨i3, i4, i5⟩
        | op a b _ _ =>
          cases a with
          | call _ _ _ => exact (b rfl).elim
          | sendBlock _ _ => exact ⟨i3, i4, i5⟩
          | sendReorg _ _ => exact ⟨i3, i4, i5⟩
          | sendWaiter _ => exact ⟨i3, i4, i5⟩
          | block _ _ => exact ⟨i3, i4, i5⟩
          | reorg _ _ => exact ⟨i3, i4, i5⟩
        | beginO _ _ => exact ⟨i3, i4, i5⟩
        | put _ _ _ => exact ⟨i3, i4, i5⟩
        | meet _ _ _ => exact ⟨i3, i4, i5⟩
        | take _ _ => exact ⟨i3, i4, i5⟩
  exact key.2

end

/-! ## The whole way -/

theorem Spec.CausalFSteps.steps {s0 s : FSys} (h : CausalFSteps C env o s0 s) : FSys.Steps C env o s0 s := by
  induction h with
  | refl => exact .refl
  | step _ h _ ih => exact .step ih h

theorem Spec.CausalFSteps.sys {s0 s : FSys} (h : CausalFSteps C env o s0 s) : CausalSteps C env o s0.sys s.sys := by
  induction h with
  | refl => exact .refl
  | step _ h hc ih =>
    rcases FStep.sys h with e | e
    · rw [e]; exact ih
    · exact .step ih e hc

theorem filter_all {l : List Ev} {p : Ev → Bool} (h : ∀ x ∈ l, p x = true) : l.filter p = l := List.filter_eq_self.mpr h

section
variable {cfg : Config} {root : SentBlock} {tree : List SentBlock} {received : List RMsg}

/-- **C146**, end to end: as C86, for what one subscriber has read. When all messages have arrived, everything has been handled and the subscriber
has read all there is, it holds, having applied the updates it read, a chain of blocks exactly as produced that ends in a block of maximal weight
of the whole tree; whatever other subscribers there are, and whether or not they read or stay. -/
theorem C146_end (h : SentTree C cfg root tree received) (hC : C.Lawful) (hwin : (tree.length : Int) ≤ 2 * cfg.reorgThreshold)
    (hf : HeadersFollow root tree received) (ha : ∀ s ∈ tree, AllArrive s.msgs received) {s0 s : FSys}
    (hst : FSys.start cfg (received.map Call.msg) = .ok s0) (hs : CausalFSteps C env o s0 s) (hd : s.sys.Drained ∧ s.opq = []) (hg : Heard env s.sys)
    {x : SubCh} (hx : x ∈ s.subs) (hk : x.kind = .updates) (hl : x.live = true) (hj : x.joined = 0) (hread : x.due = none ∧ x.buf = []) :
    ∃ base chain top, Replays cfg.lastHash (updatesRead x.got) base chain ∧ Linked base chain ∧ endOf base chain = top.args.hash ∧
      top ∈ tree ∧ (∀ sb ∈ tree, sb.args.weight ≤ top.args.weight) ∧
      ∀ b ∈ chain, ∃ sb ∈ tree, Exact cfg.tracked sb.schema sb.args sb.subs b := by
  have hst' := (FInv.start hst).2.1
  have hinv := start_inv hst hs.steps
  obtain ⟨base, chain, top, g1, g2, g3, g4, g5, g6⟩ := C86_end h hC hwin hf ha hst' hs.sys hd.1 hg
  refine ⟨base, chain, top, ?_, g2, g3, g4, g5, g6⟩
  have hev := (h.inside hC hwin hf hst' hs.sys).2.1
  obtain ⟨mp0, omp0, ms, ds, _, ho, _, _, _, h5, _⟩ := h.supplied.inside hC hst' hs.sys.steps
  have hlog0 : omp0.log = [] := by
    unfold newOMP at ho
    split at ho
    · simp at ho
    · simp only [Except.ok.injEq] at ho; subst ho; rfl
  have hno := run_no_notes h5 (by simp [hlog0])
  have hall : ∀ e ∈ s.sys.omp.log.map Ev.o, Kind.updates.takes e = true := by
    intro e he
    obtain ⟨y, hy, rfl⟩ := List.mem_map.mp he
    cases y with
    | update a r => rfl
    | reorg n k => exact (hno _ hy n k rfl).elim
    | evictOlder n => exact (hev n hy).elim
  have hgot := (hinv.subs x hx).live hl
  have hO := hinv.logO
  rw [hd.2] at hO
  simp only [List.map_nil, List.append_nil] at hO
  have hbeg : s.begun Kind.updates = s.begunO := rfl
  rw [hread.1, hread.2, hj, hk, hbeg, hO, List.drop_zero, filter_all hall] at hgot
  have hgot : x.got = s.sys.omp.log.map Ev.o := by simpa using hgot
  rw [hgot]
  have : updatesRead (s.sys.omp.log.map Ev.o) = s.sys.omp.log := by
    unfold updatesRead
    rw [List.filterMap_map]
    have : ((fun (e : Ev) => match e with | .o x => some x | .c _ => none) ∘ Ev.o) = (some : OOut → Option OOut) := by funext y; rfl
    exact (congrArg (fun f => List.filterMap f s.sys.omp.log) this).trans List.filterMap_some
  rw [this]
  exact g1

/-- **C146**, end to end, no faults: whatever the subscribers do, no goroutine is about to fault, and as long as they keep reading everything is
handled and read in the end. -/
theorem C146_no_fault (h : SentTree C cfg root tree received) (hC : C.Lawful) (hwin : (tree.length : Int) ≤ 2 * cfg.reorgThreshold)
    {s0 s : FSys} (hst : FSys.start cfg (received.map Call.msg) = .ok s0) (hs : FSys.Steps C env o s0 s) :
    ¬ Faulty C env o s.sys ∧ ∃ s', FSys.Works C env o s s' ∧ s'.Settled := by
  have key : ∀ s, FSys.Steps C env o s0 s → ¬ Faulty C env o s.sys := fun s hs =>
    (C86_no_fault h hC hwin (C146_goroutines hst hs).1 (C146_goroutines hst hs).2).1
  refine ⟨key s hs, ?_⟩
  obtain ⟨s', h1, h2⟩ := (C146_completes (C := C) (env := env) (o := o) hst).2 s hs |>.2
  exact ⟨s', h1, h2.resolve_right (key s' (FSteps.trans hs (Works.steps h1)))⟩

end

/-! ## Examples -/

theorem Work.keeps {s s' : FSys} {k : Kind} {n : Nat} (h : FSys.Work C env o s s')
    (hx : ∃ x ∈ s.subs, x.kind = k ∧ x.live = true ∧ x.joined = n) : ∃ x ∈ s'.subs, x.kind = k ∧ x.live = true ∧ x.joined = n := by
  obtain ⟨x, hx, h1⟩ := hx
  have repl : ∀ {l r : List SubCh} {y z : SubCh}, s.subs = l ++ y :: r → (z.kind = y.kind ∧ z.live = y.live ∧ z.joined = y.joined) →
      ∃ x ∈ l ++ z :: r, x.kind = k ∧ x.live = true ∧ x.joined = n := by
    intro l r y z e hz
    rw [e] at hx
    rcases List.mem_append.mp hx with hx | hx
    · exact ⟨x, by simp [hx], h1⟩
    · rcases List.mem_cons.mp hx with rfl | hx
      · exact ⟨z, by simp, by rw [hz.1, hz.2.1, hz.2.2]; exact h1⟩
      · exact ⟨x, by simp [hx], h1⟩
  have off : ∀ e, ∃ x ∈ s.subs.map (SubCh.offer e), x.kind = k ∧ x.live = true ∧ x.joined = n := by
    intro e
    refine ⟨x.offer e, List.mem_map.mpr ⟨x, hx, rfl⟩, ?_⟩
    unfold SubCh.offer
    split <;> exact h1
  cases h with
  | call _ _ _ _ => exact ⟨x, hx, h1⟩
  | beginC _ _ _ => exact off _
  | accept _ _ _ _ => exact ⟨x, hx, h1⟩
  | op _ _ _ _ => exact ⟨x, hx, h1⟩
  | beginO _ _ => exact off _
  | put a _ _ => exact repl a ⟨rfl, rfl, rfl⟩
  | meet a _ _ => exact repl a ⟨rfl, rfl, rfl⟩
  | take a _ => exact repl a ⟨rfl, rfl, rfl⟩

theorem Works.keeps {s s' : FSys} {k : Kind} {n : Nat} (h : FSys.Works C env o s s')
    (hx : ∃ x ∈ s.subs, x.kind = k ∧ x.live = true ∧ x.joined = n) : ∃ x ∈ s'.subs, x.kind = k ∧ x.live = true ∧ x.joined = n := by
  induction h with
  | refl => exact hx
  | step _ h2 ih => exact Work.keeps h2 ih

theorem causalF_of_none (he : ∀ t, env.evict t = []) {s0 s : FSys} (h : FSys.Steps C env o s0 s) : CausalFSteps C env o s0 s := by
  induction h with
  | refl => exact .refl
  | step _ h ih => exact .step ih h (fun _ t _ n hn => by rw [he] at hn; simp at hn)

/-- C146, end to end: the fork of C86, with an unbuffered subscriber to updates and one to blocks. -/
example : ∃ root tree received, SentTree Avro.codec exForkCfg root tree received ∧ (tree.length : Int) ≤ 2 * exForkCfg.reorgThreshold ∧
    HeadersFollow root tree received ∧ (∀ s ∈ tree, AllArrive s.msgs received) ∧
    ∃ s0 s x y, FSys.start exForkCfg (received.map Call.msg) = .ok s0 ∧ CausalFSteps Avro.codec exEnv .plain s0 s ∧ s.Settled ∧ Heard exEnv s.sys ∧
      x ∈ s.subs ∧ x.kind = .updates ∧ x.live = true ∧ x.joined = 0 ∧ x.got ≠ [] ∧
      y ∈ s.subs ∧ y.kind = .blocks ∧ y.live = true := by
  obtain ⟨root, tree, received, ⟨_, sb, hsb, hlt⟩, hT, hw, hF, hA, y0, y, _, _, hy0, _⟩ := exFork_run
  refine ⟨root, tree, received, hT, hw, hF, hA, ?_⟩
  let s0 : FSys := { sys := y0, opq := [], busy := false, begunC := [], begunO := [], subs := [] }
  have hs0 : FSys.start exForkCfg (received.map Call.msg) = .ok s0 := by
    unfold FSys.start
    rw [hy0]
    rfl
  have h1 : FSys.Steps Avro.codec exEnv .plain s0 { s0 with subs := [.fresh .updates 0 0] } := .step .refl .subscribe
  have h2 : FSys.Steps Avro.codec exEnv .plain s0 { s0 with subs := [.fresh .updates 0 0, .fresh .blocks 3 0] } := .step h1 .subscribe
  obtain ⟨s, h3, h4⟩ := (C146_no_fault hT Avro.codec_lawful hw hs0 h2).2
  obtain ⟨x, hx, hk, hl, hj⟩ := Works.keeps h3 (k := .updates) (n := 0) ⟨.fresh .updates 0 0, by simp, rfl, rfl, rfl⟩
  obtain ⟨z, hz, hzk, hzl, hzj⟩ := Works.keeps h3 (k := .blocks) (n := 0) ⟨.fresh .blocks 3 0, by simp, rfl, rfl, rfl⟩
  have hall := FSteps.trans h2 (Works.steps h3)
  have hcs := causalF_of_none (fun _ => rfl) hall
  have hh : Heard exEnv s.sys := fun t _ n hn => by simp [exEnv] at hn
  refine ⟨s0, s, x, z, hs0, hcs, h4, hh, hx, hk, hl, hj, ?_, hz, hzk, hzl⟩
  intro e
  obtain ⟨base, chain, top, g1, g2, g3, g4, g5, _⟩ := C146_end hT Avro.codec_lawful hw hF hA hs0 hcs ⟨h4.1, h4.2.1⟩ hh hx hk hl hj (h4.2.2.2 x hx)
  rw [e] at g1
  generalize hr : updatesRead [] = r at g1
  cases g1 with
  | start =>
    have : top = root := hT.supplied.inj _ _ g4 hT.mem (g3.symm.trans hT.hash.symm)
    rw [this] at g5
    have := g5 sb hsb
    omega
  | step _ _ => simp [updatesRead] at hr

/-- The next step of a schedule. -/
inductive FSched where
  | subscribe (k : Kind) (cap : Nat) | call | beginC | accept | op | beginO

/-- `FSys.Free`. -/
def FSys.free (s : FSys) (caller : Bool) : Bool := s.subs.all (fun x => x.kind.byCaller != caller || x.due.isNone)

theorem FSys.free_iff {s : FSys} {caller : Bool} (h : s.free caller = true) : s.Free caller := by
  intro x hx hc
  have := List.all_eq_true.mp h x hx
  rw [hc] at this
  simpa using this

/-- Performing it. -/
def FSys.exec1 (C : Codec) (env : Env) (o : MapOrder) (s : FSys) : FSched → Option FSys
  | .subscribe k cap => some { s with subs := s.subs ++ [.fresh k cap (s.begun k).length] }
  | .call => if s.busy || !s.free true then none else (s.sys.exec1 C env o .call).map fun y => { s with sys := y }
  | .beginC => match s.sys.out with
    | x :: _ => if s.busy || !s.free true then none else
      some { s with busy := true, begunC := s.begunC ++ [.c x], subs := s.subs.map (SubCh.offer (.c x)) }
    | [] => none
  | .accept => if s.busy then (s.sys.exec1 C env o .send).map fun y => { s with sys := y, busy := false } else none
  | .op => if s.opq.isEmpty && s.free false then
      (s.sys.exec1 C env o .block).map fun y => { s with sys := y, opq := y.omp.log.drop s.sys.omp.log.length } else none
  | .beginO => match s.opq with
    | x :: rest => if s.free false then
      some { s with opq := rest, begunO := s.begunO ++ [.o x], subs := s.subs.map (SubCh.offer (.o x)) } else none
    | [] => none

theorem fexec1_step {s s' : FSys} {x : FSched} (h : s.exec1 C env o x = some s') : FSys.Step C env o s s' := by
  cases x with
  | subscribe k cap => simp only [FSys.exec1, Option.some.injEq] at h; subst h; exact .subscribe
  | call =>
    simp only [FSys.exec1] at h
    split at h
    · simp at h
    · rename_i hc
      simp only [Bool.or_eq_true, Bool.not_eq_true', not_or, Bool.not_eq_true, Bool.not_eq_false] at hc
      rw [Option.map_eq_some_iff] at h
      obtain ⟨y, h1, rfl⟩ := h
      refine .work (.call (exec1_step h1) ?_ hc.1 (FSys.free_iff hc.2))
      unfold Sys.exec1 at h1
      simp only [] at h1
      split at h1
      · split at h1
        · simp only [Option.some.injEq] at h1; subst h1; simp
        · simp at h1
      · simp at h1
  | beginC =>
    simp only [FSys.exec1] at h
    split at h
    · rename_i hout
      split at h
      · simp at h
      · rename_i hc
        simp only [Bool.or_eq_true, Bool.not_eq_true', not_or, Bool.not_eq_true, Bool.not_eq_false] at hc
        simp only [Option.some.injEq] at h; subst h
        exact .work (.beginC hout hc.1 (FSys.free_iff hc.2))
    · simp at h
  | accept =>
    simp only [FSys.exec1] at h
    split at h
    · rename_i hb
      rw [Option.map_eq_some_iff] at h
      obtain ⟨y, h1, rfl⟩ := h
      have : y.calls = s.sys.calls ∧ y.ops = s.sys.ops := by
        unfold Sys.exec1 at h1
        simp only [] at h1
        split at h1
        · split at h1
          · simp only [Option.some.injEq] at h1; subst h1; exact ⟨rfl, rfl⟩
          · simp at h1
        · split at h1
          · simp only [Option.some.injEq] at h1; subst h1; exact ⟨rfl, rfl⟩
          · simp at h1
        · simp only [Option.some.injEq] at h1; subst h1; exact ⟨rfl, rfl⟩
        · simp at h1
      exact .work (.accept (exec1_step h1) this.1 this.2 hb)
    · simp at h
  | op =>
    simp only [FSys.exec1] at h
    split at h
    · rename_i hc
      simp only [Bool.and_eq_true, List.isEmpty_iff] at hc
      rw [Option.map_eq_some_iff] at h
      obtain ⟨y, h1, rfl⟩ := h
      refine .work (.op (exec1_step h1) ?_ hc.1 (FSys.free_iff hc.2))
      unfold Sys.exec1 at h1
      simp only [] at h1
      split at h1
      · split at h1
        · simp only [Option.some.injEq] at h1; subst h1; simp
        · simp at h1
      · simp at h1
    · simp at h
  | beginO =>
    simp only [FSys.exec1] at h
    split at h
    · rename_i hq
      split at h
      · rename_i hc
        simp only [Option.some.injEq] at h; subst h
        exact .work (.beginO hq (FSys.free_iff hc))
      · simp at h
    · simp at h

/-- Performing a schedule. -/
def FSys.exec (C : Codec) (env : Env) (o : MapOrder) (s : FSys) (l : List FSched) : Option FSys := l.foldlM (FSys.exec1 C env o) s

theorem fexec_steps {s s1 s' : FSys} {l : List FSched} (h1 : FSys.Steps C env o s s1) (h : s1.exec C env o l = some s') : FSys.Steps C env o s s' := by
  induction l generalizing s1 with
  | nil => simp only [FSys.exec, List.foldlM_nil, Option.pure_def, Option.some.injEq] at h; subst h; exact h1
  | cons x l ih =>
    simp only [FSys.exec, List.foldlM_cons, Option.bind_eq_bind, Option.bind_eq_some_iff] at h
    obtain ⟨s2, h2, h3⟩ := h
    exact ih (.step h1 (fexec1_step h2)) h3

/-- A schedule after which an unbuffered subscriber to updates keeps the ordering goroutine waiting. -/
def exStall : List FSched := [.subscribe .updates 0, .call, .beginC, .accept, .beginC, .accept, .op, .beginO]

/-- C146, a subscriber that does not read: such a state is reached, and another call can be made meanwhile. -/
example : ∃ s0 s s' x e, FSys.start exSysCfg exOrderCalls = .ok s0 ∧ FSys.Steps Avro.codec exEnv .plain s0 s ∧ x.due = some e ∧
    x.kind = .updates ∧ Unread Avro.codec exEnv .plain x s s' ∧ s'.sys.calls.length = 2 := by
  have h : (match FSys.start exSysCfg exOrderCalls with
    | .ok s0 => (match s0.exec Avro.codec exEnv .plain exStall with
      | some s => (match s.subs, s.exec1 Avro.codec exEnv .plain .call with
        | [x], some s' => x.due.isSome && decide (x.kind = .updates) && decide (s'.sys.calls.length = 2)
        | _, _ => false)
      | none => false)
    | .error _ => false) = true := by decide +kernel
  split at h
  · rename_i s0 h0
    split at h
    · rename_i s h1
      split at h
      · rename_i x s' hx hcall
        simp only [Bool.and_eq_true, decide_eq_true_eq] at h
        obtain ⟨e, he⟩ := Option.isSome_iff_exists.mp h.1.1
        refine ⟨s0, s, s', x, e, h0, fexec_steps .refl h1, he, h.1.2, .step (.refl (by rw [hx]; simp)) (fexec1_step hcall) ?_, h.2⟩
        simp only [FSys.exec1] at hcall
        split at hcall
        · simp at hcall
        · rw [Option.map_eq_some_iff] at hcall
          obtain ⟨y, _, rfl⟩ := hcall
          simp [hx]
      · simp at h
    · simp at h
  · simp at h

end Verif
