import Verif.Props.Subscribers
/-!
# C146 across the feeds of one goroutine

What a reader of two feeds served by the same goroutine can tell about the order of the values, and what not.
-/
namespace Verif

namespace Spec

/-- The values sent for the channel since it was subscribed and among the first `n` its goroutine sent. -/
def addressedTill (s : Sys) (x : SubCh) (n : Nat) : List Ev := (((sendsFor s x.kind).take n).drop x.joined).filter (meant x.kind)

/-- Two kinds of values that the same goroutine sends. -/
def Sisters : Kind → Kind → Prop
  | .updates, .reorgs | .reorgs, .updates | .blocks, .waiters | .waiters, .blocks => True
  | _, _ => False

end Spec
open Spec

variable {C : Codec} {env : Env} {o : MapOrder}

/-- A value still being offered is the last one whose sending started. -/
def DueLast (s : FSys) : Prop := ∀ x ∈ s.subs, ∀ e, x.due = some e → x.kind.takes e = true ∧ ∃ b, s.begun x.kind = b ++ [e]

theorem due_begin {s s' : FSys} {e : Ev} (caller : Bool) (hside : ∀ k : Kind, k.takes e = true → k.byCaller = caller) (hf : s.Free caller)
    (hsame : ∀ k : Kind, k.byCaller = caller → s'.begun k = s.begun k ++ [e])
    (hother : ∀ k : Kind, k.byCaller ≠ caller → s'.begun k = s.begun k) (hsub : s'.subs = s.subs.map (SubCh.offer e)) (h : DueLast s) :
    DueLast s' := by
  intro y hy v hv
  rw [hsub] at hy
  obtain ⟨x, hx, rfl⟩ := List.mem_map.mp hy
  unfold SubCh.offer at hv ⊢
  split at hv
  · rename_i hc
    rw [if_pos hc]
    simp only [Bool.and_eq_true] at hc
    simp only [Option.some.injEq] at hv
    subst hv
    exact ⟨hc.2, _, hsame _ (hside _ hc.2)⟩
  · rename_i hc
    rw [if_neg hc]
    by_cases hk : x.kind.byCaller = caller
    · rw [hf x hx hk] at hv
      simp at hv
    · rw [hother _ hk]
      exact h x hx v hv

theorem due_replace {s s' : FSys} {l r : List SubCh} {x y : SubCh} (hs : s.subs = l ++ x :: r) (hs' : s'.subs = l ++ y :: r)
    (hb : ∀ k, s'.begun k = s.begun k) (hy : y.kind = x.kind ∧ (y.due = x.due ∨ y.due = none)) (h : DueLast s) : DueLast s' := by
  intro z hz v hv
  rw [hb]
  rw [hs'] at hz
  have old : ∀ w, w ∈ l ++ x :: r → w.due = some v → w.kind.takes v = true ∧ ∃ b, s.begun w.kind = b ++ [v] := fun w hw => h w (by rw [hs]; exact hw) v
  rcases List.mem_append.mp hz with hz | hz
  · exact old z (by simp [hz]) hv
  · rcases List.mem_cons.mp hz with rfl | hz
    · rcases hy.2 with e | e
      · rw [hy.1]; exact old x (by simp) (by rw [← e]; exact hv)
      · rw [e] at hv; simp at hv
    · exact old z (by simp [hz]) hv

theorem DueLast.step {s s' : FSys} (h : DueLast s) (hs : FSys.Step C env o s s') : DueLast s' := by
  cases hs with
  | work hw =>
    cases hw with
    | call _ _ _ _ => exact h
    | beginC _ _ hf =>
      refine due_begin true (fun k (hk : k.takes (.c _) = true) => takes_side hk) hf ?_ ?_ rfl h
      · intro k hk; simp [FSys.begun, hk]
      · intro k hk; simp [FSys.begun, hk]
    | accept _ _ _ _ => exact h
    | op _ _ _ _ => exact h
    | beginO _ hf =>
      refine due_begin false (fun k (hk : k.takes (.o _) = true) => takes_side hk) hf ?_ ?_ rfl h
      · intro k hk; simp [FSys.begun, hk]
      · intro k hk; simp [FSys.begun, hk]
    | put a _ _ => exact due_replace a rfl (fun _ => rfl) ⟨rfl, .inr rfl⟩ h
    | meet a _ _ => exact due_replace a rfl (fun _ => rfl) ⟨rfl, .inr rfl⟩ h
    | take a _ => exact due_replace a rfl (fun _ => rfl) ⟨rfl, .inl rfl⟩ h
  | subscribe =>
    intro x hx v hv
    rcases List.mem_append.mp hx with hx | hx
    · exact h x hx v hv
    · rw [List.mem_singleton.mp hx] at hv
      simp [SubCh.fresh] at hv
  | unsubscribe a => exact due_replace a rfl (fun _ => rfl) ⟨rfl, .inr rfl⟩ h

theorem DueLast.steps {s s' : FSys} (h : DueLast s) (hs : FSys.Steps C env o s s') : DueLast s' := by
  induction hs with
  | refl => exact h
  | step _ h2 ih => exact ih.step h2

/-- The first so many of what is selected are what is selected of the first so many. -/
theorem prefix_filter {p : Ev → Bool} {j : Nat} {b l : List Ev} (h : l <+: (b.drop j).filter p) :
    ∃ n, n ≤ b.length ∧ l = ((b.take n).drop j).filter p := by
  obtain ⟨t, ht⟩ := h
  obtain ⟨u, v, e, hu, _⟩ := List.filter_eq_append_iff.mp ht.symm
  by_cases hj : j ≤ b.length
  · refine ⟨j + u.length, ?_, ?_⟩
    · have := congrArg List.length e
      simp only [List.length_drop, List.length_append] at this
      omega
    · rw [List.drop_take, Nat.add_sub_cancel_left, e, List.take_left, hu]
  · refine ⟨0, Nat.zero_le _, ?_⟩
    rw [List.drop_eq_nil_of_le (by omega)] at e
    have : u = [] := (List.append_eq_nil_iff.mp e.symm).1
    rw [← hu, this]
    simp

theorem till_mono {s : Sys} {x : SubCh} {m n : Nat} (h : m ≤ n) : addressedTill s x m <+: addressedTill s x n := by
  unfold addressedTill
  refine List.IsPrefix.filter _ ?_
  rw [List.drop_take, List.drop_take]
  exact List.take_prefix_take_left (by omega)

section
variable {cfg : Config} {todo : List Call} {s0 s : FSys}

theorem FInv.till {s : FSys} (h : FInv s) {n : Nat} (x : SubCh) (hn : n ≤ (s.begun x.kind).length) :
    addressedTill s.sys x n = (((s.begun x.kind).take n).drop x.joined).filter x.kind.takes := by
  obtain ⟨later, e, _⟩ := h.sends x.kind
  unfold addressedTill
  rw [e, List.take_append_of_le_length hn, takes_meant]

theorem sisters_begun {s : FSys} {j k : Kind} (h : Sisters j k) : s.begun j = s.begun k := by
  cases j <;> cases k <;> first | rfl | exact h.elim

theorem sisters_takes {j k : Kind} {e : Ev} (h : Sisters j k) (ht : j.takes e = true) : k.takes e = false := by
  cases j <;> cases k <;> first | exact h.elim | (cases e <;> rename_i x <;> cases x <;> first | rfl | exact absurd ht (by simp [Kind.takes]))

theorem Spec.Sisters.symm {j k : Kind} (h : Sisters j k) : Sisters k j := by
  cases j <;> cases k <;> first | trivial | exact h.elim

/-- **C146**, across feeds: of two channels, of different kinds, that the same goroutine serves, when the one has been read up to some point of what
the goroutine sent, the other has been read up to that point as well, except for at most as many values as its buffer holds. -/
theorem C146_across (hn : FSys.start cfg todo = .ok s0) (hs : FSys.Steps C env o s0 s) {x y : SubCh} (hx : x ∈ s.subs) (hy : y ∈ s.subs)
    (hk : Sisters x.kind y.kind) (hl : x.live = true) :
    ∃ n, y.got = addressedTill s.sys y n ∧ (addressedTill s.sys x n).length ≤ x.got.length + x.cap := by
  have h := start_inv hn hs
  have hd : DueLast s := by
    refine DueLast.steps ?_ hs
    intro z hz
    rw [(FInv.start hn).2.2.1] at hz
    simp at hz
  have hxy := sisters_begun (s := s) hk
  have hpre : y.got <+: ((s.begun y.kind).drop y.joined).filter y.kind.takes :=
    List.IsPrefix.trans (List.prefix_append _ y.buf) (h.subs y hy).pre
  have hlive := (h.subs x hx).live hl
  have hroom := (h.subs x hx).room
  have bound : ∀ n, n ≤ (s.begun x.kind).length →
      (addressedTill s.sys x n).length ≤ (((s.begun x.kind).drop x.joined).filter x.kind.takes).length := by
    intro n hn
    rw [h.till x hn]
    refine (List.Sublist.filter _ ?_).length_le
    exact List.Sublist.drop (List.take_sublist _ _) _
  cases hdue : x.due with
  | none =>
    obtain ⟨n, h1, h2⟩ := prefix_filter hpre
    refine ⟨n, by rw [h.till y h1]; exact h2, ?_⟩
    have := bound n (by rw [hxy]; exact h1)
    rw [← hlive, hdue] at this
    simp only [Option.toList_none, List.append_nil, List.length_append] at this
    omega
  | some e =>
    obtain ⟨ht, b, hb⟩ := hd x hx e hdue
    have hby : s.begun y.kind = b ++ [e] := by rw [← hxy]; exact hb
    have hyj : ((b ++ [e]).drop y.joined).filter y.kind.takes = (b.drop y.joined).filter y.kind.takes := by
      rw [List.drop_append, List.filter_append]
      have : ((([e] : List Ev).drop (y.joined - b.length)).filter y.kind.takes) = [] := by
        rw [List.filter_eq_nil_iff]
        intro v hv
        have := List.mem_singleton.mp (List.mem_of_mem_drop hv)
        rw [this, sisters_takes hk ht]
        simp
      rw [this, List.append_nil]
    rw [hby, hyj] at hpre
    obtain ⟨n, h1, h2⟩ := prefix_filter hpre
    have hn1 : n ≤ (s.begun y.kind).length := by rw [hby, List.length_append]; omega
    have htk : (s.begun y.kind).take n = b.take n := by rw [hby, List.take_append_of_le_length h1]
    refine ⟨n, by rw [h.till y hn1, htk]; exact h2, ?_⟩
    have hn2 : n ≤ (s.begun x.kind).length := by rw [hxy]; exact hn1
    rw [h.till x hn2, hxy, htk]
    rw [hdue, hb, List.drop_append, List.filter_append] at hlive
    have h3 := congrArg List.length hlive
    have h4 : ((b.drop x.joined).filter x.kind.takes).length = 0 ∨ ((([e] : List Ev).drop (x.joined - b.length)).filter x.kind.takes).length = 1 := by
      by_cases hj : x.joined ≤ b.length
      · right
        rw [Nat.sub_eq_zero_of_le hj]
        simp [ht]
      · left
        rw [List.drop_eq_nil_of_le (by omega)]
        rfl
    have h5 : (((b.take n).drop x.joined).filter x.kind.takes).length ≤ ((b.drop x.joined).filter x.kind.takes).length :=
      (List.Sublist.filter _ (List.Sublist.drop (List.take_sublist _ _) _)).length_le
    simp only [List.length_append, Option.toList_some, List.length_singleton] at h3
    omega

/-- **C146**, two feeds as one: a reader of two unbuffered channels of different kinds, served by the same goroutine, has always read the values of
both kinds of one initial part of what the goroutine sent. So at any time the updates and reorg notifications it has read can be put in the one order
in which they were sent, without any being missing. -/
theorem C146_together (hn : FSys.start cfg todo = .ok s0) (hs : FSys.Steps C env o s0 s) {x y : SubCh} (hx : x ∈ s.subs) (hy : y ∈ s.subs)
    (hk : Sisters x.kind y.kind) (hlx : x.live = true) (hly : y.live = true) (hcx : x.cap = 0) (hcy : y.cap = 0) :
    ∃ n, x.got = addressedTill s.sys x n ∧ y.got = addressedTill s.sys y n := by
  obtain ⟨n, a1, a2⟩ := C146_across hn hs hx hy hk hlx
  obtain ⟨m, b1, b2⟩ := C146_across hn hs hy hx hk.symm hly
  rw [hcx] at a2
  rw [hcy] at b2
  rcases Nat.le_total n m with h | h
  · refine ⟨m, b1, ?_⟩
    have := till_mono (s := s.sys) (x := y) h
    rw [← a1] at this
    exact this.eq_of_length_le (by omega)
  · refine ⟨n, ?_, a1⟩
    have := till_mono (s := s.sys) (x := x) h
    rw [← b1] at this
    exact this.eq_of_length_le (by omega)

end

/-! ## Buffers lose the order -/

/-- The next step of a schedule with readers. -/
inductive RSched where
  | go (x : FSched) | note | put (i : Nat) | meet (i : Nat)

/-- Performing it. -/
def FSys.rexec1 (C : Codec) (env : Env) (o : MapOrder) (s : FSys) : RSched → Option FSys
  | .go x => s.exec1 C env o x
  | .note => if s.opq.isEmpty && s.free false then
      (s.sys.exec1 C env o .reorg).map fun y => { s with sys := y, opq := y.omp.log.drop s.sys.omp.log.length } else none
  | .put i => match s.subs.drop i with
    | x :: r => match x.due with
      | some e => if x.buf.length < x.cap then some { s with subs := s.subs.take i ++ { x with buf := x.buf ++ [e], due := none } :: r } else none
      | none => none
    | [] => none
  | .meet i => match s.subs.drop i with
    | x :: r => match x.due, x.buf with
      | some e, [] => some { s with subs := s.subs.take i ++ { x with got := x.got ++ [e], due := none } :: r }
      | _, _ => none
    | [] => none

theorem rexec1_step {s s' : FSys} {x : RSched} (h : s.rexec1 C env o x = some s') : FSys.Step C env o s s' := by
  cases x with
  | go x => exact fexec1_step h
  | note =>
    simp only [FSys.rexec1] at h
    split at h
    · rename_i hc
      simp only [Bool.and_eq_true, List.isEmpty_iff] at hc
      rw [Option.map_eq_some_iff] at h
      obtain ⟨y, h1, rfl⟩ := h
      refine .work (.op (exec1_step h1) ?_ hc.1 (FSys.free_iff hc.2))
      unfold Sys.exec1 at h1
      simp only [] at h1
      split at h1
      · split at h1
        · simp only [Option.some.injEq] at h1; subst h1; simp
        · simp at h1
      · simp at h1
    · simp at h
  | put i =>
    simp only [FSys.rexec1] at h
    split at h
    · rename_i x r hd
      split at h
      · rename_i e he
        split at h
        · rename_i hroom
          simp only [Option.some.injEq] at h; subst h
          exact .work (.put (by rw [← hd, List.take_append_drop]) he hroom)
        · simp at h
      · simp at h
    · simp at h
  | meet i =>
    simp only [FSys.rexec1] at h
    split at h
    · rename_i x r hd
      split at h
      · rename_i e he hb
        simp only [Option.some.injEq] at h; subst h
        exact .work (.meet (by rw [← hd, List.take_append_drop]) he hb)
      · simp at h
    · simp at h

/-- Performing a schedule. -/
def FSys.rexec (C : Codec) (env : Env) (o : MapOrder) (s : FSys) (l : List RSched) : Option FSys := l.foldlM (FSys.rexec1 C env o) s

theorem rexec_steps {s s1 s' : FSys} {l : List RSched} (h1 : FSys.Steps C env o s s1) (h : s1.rexec C env o l = some s') : FSys.Steps C env o s s' := by
  induction l generalizing s1 with
  | nil => simp only [FSys.rexec, List.foldlM_nil, Option.pure_def, Option.some.injEq] at h; subst h; exact h1
  | cons x l ih =>
    simp only [FSys.rexec, List.foldlM_cons, Option.bind_eq_bind, Option.bind_eq_some_iff] at h
    obtain ⟨s2, h2, h3⟩ := h
    exact ih (.step h1 (rexec1_step h2)) h3

/-- A block is handled and its update lies in the buffer of the one channel; the notification that follows is read from the other. -/
def exApart : List RSched :=
  ([.subscribe .updates 1, .subscribe .reorgs 0, .call, .beginC, .accept, .beginC, .accept, .op, .beginO] : List FSched).map .go ++
  [.put 0, .go .call, .go .beginC, .go .accept, .note, .go .beginO, .meet 1]

/-- The same with two unbuffered channels, both read. -/
def exTogether : List RSched :=
  ([.subscribe .updates 0, .subscribe .reorgs 0, .call, .beginC, .accept, .beginC, .accept, .op, .beginO] : List FSched).map .go ++
  [.meet 0, .go .call, .go .beginC, .go .accept, .note, .go .beginO, .meet 1]

/-- The final state of a schedule with what is checked of it: the two channels, and whether the first thing sent was an update and the second a
notification. -/
def exReaders (l : List RSched) (read0 read1 : Nat) (cap0 : Nat) : Bool :=
  match FSys.start exSysCfg exOrderCalls with
  | .ok s0 => (match s0.rexec Avro.codec exEnv .plain l with
    | some s => (match s.subs, s.sys.omp.log with
      | [x, y], [.update _ _, .reorg _ _] => decide (x.kind = .updates) && decide (y.kind = .reorgs) && x.live && y.live && decide (x.joined = 0) &&
        decide (y.joined = 0) && decide (x.got.length = read0) && decide (y.got.length = read1) && decide (x.cap = cap0) && decide (y.cap = 0)
      | _, _ => false)
    | none => false)
  | .error _ => false

theorem exReaders_apart : exReaders exApart 0 1 1 = true := by decide +kernel
theorem exReaders_together : exReaders exTogether 1 1 0 = true := by decide +kernel

theorem exReaders_state {l : List RSched} {read0 read1 cap0 : Nat} (h : exReaders l read0 read1 cap0 = true) :
    ∃ s0 s x y a r n k, FSys.start exSysCfg exOrderCalls = .ok s0 ∧ FSys.Steps Avro.codec exEnv .plain s0 s ∧ s.subs = [x, y] ∧
      s.sys.omp.log = [.update a r, .reorg n k] ∧ x.kind = .updates ∧ y.kind = .reorgs ∧ x.live = true ∧ y.live = true ∧ x.joined = 0 ∧
      y.joined = 0 ∧ x.got.length = read0 ∧ y.got.length = read1 ∧ x.cap = cap0 ∧ y.cap = 0 := by
  unfold exReaders at h
  split at h
  · rename_i s0 h0
    split at h
    · rename_i s h1
      split at h
      · rename_i x y a r n k hx hlog
        simp only [Bool.and_eq_true, decide_eq_true_eq] at h
        obtain ⟨⟨⟨⟨⟨⟨⟨⟨⟨c1, c2⟩, c3⟩, c4⟩, c5⟩, c6⟩, c7⟩, c8⟩, c9⟩, c10⟩ := h
        exact ⟨s0, s, x, y, a, r, n, k, h0, rexec_steps .refl h1, hx, hlog, c1, c2, c3, c4, c5, c6, c7, c8, c9, c10⟩
      · simp at h
    · simp at h
  · simp at h

/-- **C146**, two feeds are not one when a channel is buffered: with room for one update, a reader can get the notification of a reorg before the
update that was sent before it, so that it cannot tell whether the update came before or after the reorg. -/
theorem C146_apart : ∃ (cfg : Config) (todo : List Call) (s0 s : FSys) (x y : SubCh), FSys.start cfg todo = .ok s0 ∧
    FSys.Steps Avro.codec exEnv .plain s0 s ∧ x ∈ s.subs ∧ y ∈ s.subs ∧ x.kind = .updates ∧ y.kind = .reorgs ∧ x.live = true ∧ y.live = true ∧
    x.joined = 0 ∧ y.joined = 0 ∧ x.cap = 1 ∧ y.cap = 0 ∧ ¬ ∃ n, x.got = addressedTill s.sys x n ∧ y.got = addressedTill s.sys y n := by
  obtain ⟨s0, s, x, y, a, r, n, k, h0, h1, hsub, hlog, c1, c2, c3, c4, c5, c6, c7, c8, c9, c10⟩ := exReaders_state exReaders_apart
  refine ⟨_, _, s0, s, x, y, h0, h1, by simp [hsub], by simp [hsub], c1, c2, c3, c4, c5, c6, c9, c10, ?_⟩
  rintro ⟨m, e1, e2⟩
  rw [e1] at c7
  rw [e2] at c8
  unfold addressedTill at c7 c8
  rw [c1, c5] at c7
  rw [c2, c6] at c8
  simp only [sendsFor, hlog] at c7 c8
  match m with
  | 0 => simp at c8
  | 1 => simp [meant] at c8
  | m + 2 => simp [meant] at c7

/-- C146, two feeds as one: an update and a notification, both read. -/
example : ∃ s0 s x y, FSys.start exSysCfg exOrderCalls = .ok s0 ∧ FSys.Steps Avro.codec exEnv .plain s0 s ∧ x ∈ s.subs ∧ y ∈ s.subs ∧
    Sisters x.kind y.kind ∧ x.live = true ∧ y.live = true ∧ x.cap = 0 ∧ y.cap = 0 ∧ x.got ≠ [] ∧ y.got ≠ [] := by
  obtain ⟨s0, s, x, y, a, r, n, k, h0, h1, hsub, hlog, c1, c2, c3, c4, c5, c6, c7, c8, c9, c10⟩ := exReaders_state exReaders_together
  refine ⟨s0, s, x, y, h0, h1, by simp [hsub], by simp [hsub], ?_, c3, c4, c9, c10, ?_, ?_⟩
  · rw [c1, c2]; trivial
  · intro e; rw [e] at c7; simp at c7
  · intro e; rw [e] at c8; simp at c8

end Verif
