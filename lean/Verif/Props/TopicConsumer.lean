import Verif.Model.TopicConsumer

/-
C112: the consumer of all partitions of a topic, `utils/kafka.go`.
-/

namespace Verif

variable {α : Type}

/-- The messages of partition `i` among what came from all partitions. -/
def Spec.ofPart (i : Nat) (l : List (Nat × α)) : List α := l.filterMap (fun x => if x.1 = i then some x.2 else none)

/-- Nothing happens any more unless the reader or a caller of `Close` does something. -/
def Spec.TQuiet (s : TSys α) : Prop := ∀ u, TSys.Step s u → u.reader ≠ s.reader ∨ u.closer ≠ s.closer

open Spec

theorem ofPart_append (i : Nat) (a b : List (Nat × α)) : ofPart i (a ++ b) = ofPart i a ++ ofPart i b := List.filterMap_append

theorem ofPart_self (i : Nat) (m : α) : ofPart i [(i, m)] = [m] := by simp [ofPart]

theorem ofPart_ne {i j : Nat} (m : α) (h : j ≠ i) : ofPart i [(j, m)] = [] := by simp [ofPart, h]

/-- What has come out of a partition, on its way or received, and what it still gives. -/
def TSys.flow (s : TSys α) (i : Nat) (p : TPart α) : List α := ofPart i s.got ++ ofPart i s.chan ++ p.hand.toList ++ p.todo

/-- Which partition consumers have been closed. -/
def TCloser.fits (c : TCloser) (n : Nat) (cl : Nat → Bool) : Prop :=
  match c with
  | .lost | .idle => ∀ j, j < n → cl j = false
  | .at i => i ≤ n ∧ ∀ j, j < n → cl j = decide (j < i)
  | .failed => ∃ i, i < n ∧ ∀ j, j < n → cl j = decide (j ≤ i)
  | .done _ => ∀ j, j < n → cl j = true

/-- Whether partition consumer `j` has been closed. -/
def TSys.closedAt (s : TSys α) (j : Nat) : Bool := match s.parts[j]? with | some p => p.closed | none => false

/-- The invariant. -/
structure TInv (cap : Nat) (ls : List (List α)) (s : TSys α) : Prop where
  len : s.parts.length = ls.length
  size : s.cap = cap
  room : s.chan.length ≤ cap
  flow : ∀ i p l, s.parts[i]? = some p → ls[i]? = some l → List.Sublist (s.flow i p) l ∧ (p.closed = false → s.flow i p = l)
  ended : ∀ (i : Nat) p, s.parts[i]? = some p → p.ended = true → p.closed = true
  tags : ∀ x, x ∈ s.got ++ s.chan → x.1 < ls.length
  shut : s.shut = false
  over : s.reader ≠ .over
  client : s.clientClosed = false
  closer : s.closer.fits ls.length s.closedAt

theorem tinit_get (cap : Nat) (ls : List (List α)) (i : Nat) (p : TPart α) (h : (TSys.init cap ls).parts[i]? = some p) : ∃ l, ls[i]? = some l ∧ p = .opened l := by
  simp only [TSys.init, List.getElem?_map, Option.map_eq_some_iff] at h
  obtain ⟨l, hl, e⟩ := h
  exact ⟨l, hl, e.symm⟩

theorem tinv_init (cap : Nat) (ls : List (List α)) : TInv cap ls (.init cap ls) where
  len := by simp [TSys.init]
  size := rfl
  room := Nat.zero_le _
  flow := by
    intro i p l hp hl
    obtain ⟨l', hl', rfl⟩ := tinit_get cap ls i p hp
    rw [hl] at hl'
    cases hl'
    have : (TSys.init cap ls).flow i (.opened l) = l := by simp [TSys.flow, TSys.init, ofPart, TPart.opened]
    rw [this]
    exact ⟨List.Sublist.refl _, fun _ => rfl⟩
  ended := by
    intro i p hp he
    obtain ⟨l', hl', rfl⟩ := tinit_get cap ls i p hp
    cases he
  tags := by intro x hx; cases hx
  shut := rfl
  over := by intro h; cases h
  client := rfl
  closer := by
    intro j hj
    simp only [TSys.closedAt]
    cases h : (TSys.init cap ls).parts[j]? with
    | none => rfl
    | some p => obtain ⟨l', hl', rfl⟩ := tinit_get cap ls j p h; rfl

theorem tset_get {l : List (TPart α)} {i j : Nat} {p q : TPart α} (h : (l.set i p)[j]? = some q) : (j = i ∧ q = p) ∨ (j ≠ i ∧ l[j]? = some q) := by
  by_cases e : j = i
  · subst e
    have hlt : j < l.length := by
      have := (List.getElem?_eq_some_iff.mp h).1
      simpa using this
    rw [List.getElem?_set_self hlt] at h
    cases h
    exact .inl ⟨rfl, rfl⟩
  · rw [List.getElem?_set_ne (Ne.symm e)] at h
    exact .inr ⟨e, h⟩

/-- The flags of the partition consumers do not change when one is replaced by another with the same flag. -/
theorem closedAt_set {s : TSys α} {i : Nat} {p q : TPart α} (hp : s.parts[i]? = some p) (hc : q.closed = p.closed) : (s.upd i q).closedAt = s.closedAt := by
  funext j
  simp only [TSys.closedAt, TSys.upd]
  by_cases e : j = i
  · subst e
    rw [List.getElem?_set_self (List.getElem?_eq_some_iff.mp hp).1, hp]
    exact hc
  · rw [List.getElem?_set_ne (Ne.symm e)]

theorem closedAt_close {s : TSys α} {i : Nat} {p q : TPart α} (hp : s.parts[i]? = some p) (hc : q.closed = true) (j : Nat) :
    (s.upd i q).closedAt j = if j = i then true else s.closedAt j := by
  simp only [TSys.closedAt, TSys.upd]
  by_cases e : j = i
  · subst e
    rw [List.getElem?_set_self (List.getElem?_eq_some_iff.mp hp).1, if_pos rfl]
    exact hc
  · rw [List.getElem?_set_ne (Ne.symm e), if_neg e]

theorem tinv_step {cap : Nat} {ls : List (List α)} {s u : TSys α} (h : TInv cap ls s) (hst : TSys.Step s u) : TInv cap ls u := by
  obtain ⟨len, hcap, room, flow, ended, tags, shut, over, client, closer⟩ := h
  have hlen : ∀ {i : Nat} {p}, s.parts[i]? = some p → i < ls.length := fun hp => by
    have := (List.getElem?_eq_some_iff.mp hp).1
    omega
  cases hst with
  | @read i p m rest hp ht hh he =>
    refine ⟨by simp [TSys.upd, len], hcap, room, ?_, ?_, tags, shut, over, client, by rw [closedAt_set (q := { p with todo := rest, hand := some m }) hp rfl]; exact closer⟩
    · intro j q l hq hl
      rcases tset_get hq with ⟨rfl, rfl⟩ | ⟨hj, hq⟩
      · have := flow j p l hp hl
        simp only [TSys.flow, TSys.upd, ht, hh, Option.toList_none, Option.toList_some, List.append_nil, List.append_assoc, List.singleton_append] at this ⊢
        exact this
      · exact flow j q l hq hl
    · intro j q hq hqe
      rcases tset_get hq with ⟨rfl, rfl⟩ | ⟨hj, hq⟩
      · exact ended j p hp hqe
      · exact ended j q hq hqe
  | @send i p m hp hh hr =>
    refine ⟨by simp [TSys.upd, len], hcap, ?_, ?_, ?_, ?_, shut, over, client, ?_⟩
    · simp only [List.length_append, List.length_singleton]; omega
    · intro j q l hq hl
      rcases tset_get hq with ⟨rfl, rfl⟩ | ⟨hj, hq⟩
      · have := flow j p l hp hl
        simp only [TSys.flow, TSys.upd, hh, ofPart_append, ofPart_self, Option.toList_none, Option.toList_some, List.append_nil, List.append_assoc] at this ⊢
        exact this
      · have := flow j q l hq hl
        simp only [TSys.flow, TSys.upd, ofPart_append, ofPart_ne m (Ne.symm hj), List.append_nil, List.append_assoc] at this ⊢
        exact this
    · intro j q hq hqe
      rcases tset_get hq with ⟨rfl, rfl⟩ | ⟨hj, hq⟩
      · exact ended j p hp hqe
      · exact ended j q hq hqe
    · intro x hx
      simp only [TSys.upd, List.mem_append, List.mem_singleton] at hx
      rcases hx with hx | hx | rfl
      · exact tags x (List.mem_append_left _ hx)
      · exact tags x (List.mem_append_right _ hx)
      · exact hlen hp
    · have := closedAt_set (q := { p with hand := none }) hp rfl
      show TCloser.fits s.closer ls.length (s.upd i { p with hand := none }).closedAt
      rw [this]; exact closer
  | @meet i p m hp hh hc hr =>
    refine ⟨by simp [TSys.upd, len], hcap, room, ?_, ?_, ?_, shut, over, client, ?_⟩
    · intro j q l hq hl
      rcases tset_get hq with ⟨rfl, rfl⟩ | ⟨hj, hq⟩
      · have := flow j p l hp hl
        simp only [TSys.flow, TSys.upd, hh, hc, ofPart_append, ofPart_self, Option.toList_none, Option.toList_some, List.append_nil, List.append_assoc] at this ⊢
        simpa [ofPart] using this
      · have := flow j q l hq hl
        simp only [TSys.flow, TSys.upd, ofPart_append, ofPart_ne m (Ne.symm hj), List.append_nil, List.append_assoc] at this ⊢
        exact this
    · intro j q hq hqe
      rcases tset_get hq with ⟨rfl, rfl⟩ | ⟨hj, hq⟩
      · exact ended j p hp hqe
      · exact ended j q hq hqe
    · intro x hx
      simp only [TSys.upd, List.mem_append, List.mem_singleton] at hx
      rcases hx with (hx | rfl) | hx
      · exact tags x (List.mem_append_left _ hx)
      · exact hlen hp
      · exact tags x (List.mem_append_right _ hx)
    · have := closedAt_set (q := { p with hand := none }) hp rfl
      show TCloser.fits s.closer ls.length (s.upd i { p with hand := none }).closedAt
      rw [this]; exact closer
  | @recv x rest hc hr =>
    refine ⟨len, hcap, ?_, ?_, ended, ?_, shut, over, client, closer⟩
    · rw [hc] at room; simp only [List.length_cons] at room; show rest.length ≤ cap; omega
    · intro j q l hq hl
      have := flow j q l hq hl
      have e : ofPart j s.chan = ofPart j [x] ++ ofPart j rest := by rw [hc, ← ofPart_append]; rfl
      simp only [TSys.flow, e, ofPart_append, List.append_assoc] at this ⊢
      exact this
    · intro y hy
      apply tags y
      rw [hc]
      simp only [List.mem_append, List.mem_singleton] at hy
      simp only [List.mem_append, List.mem_cons]
      rcases hy with (hy | hy) | hy
      · exact .inl hy
      · exact .inr (.inl hy)
      · exact .inr (.inr hy)
  | over _ hsh _ => rw [shut] at hsh; cases hsh
  | leave _ => exact ⟨len, hcap, room, flow, ended, tags, shut, (fun h => by cases h), client, closer⟩
  | @stop i p hp ht hh hc he =>
    refine ⟨by simp [TSys.upd, len], hcap, room, ?_, ?_, tags, shut, over, client, by rw [closedAt_set (q := { p with ended := true }) hp rfl]; exact closer⟩
    · intro j q l hq hl
      rcases tset_get hq with ⟨rfl, rfl⟩ | ⟨hj, hq⟩
      · exact flow j p l hp hl
      · exact flow j q l hq hl
    · intro j q hq hqe
      rcases tset_get hq with ⟨rfl, rfl⟩ | ⟨hj, hq⟩
      · exact hc
      · exact ended j q hq hqe
  | call hcl =>
    refine ⟨len, hcap, room, flow, ended, tags, shut, over, client, ?_⟩
    rw [hcl] at closer
    exact ⟨Nat.zero_le _, fun j hj => by have := closer j hj; simpa [TSys.closedAt] using this⟩
  | @close i p kept hcl hp hk =>
    refine ⟨by simp [TSys.upd, len], hcap, room, ?_, ?_, tags, shut, over, client, ?_⟩
    · intro j q l hq hl
      rcases tset_get hq with ⟨rfl, rfl⟩ | ⟨hj, hq⟩
      · refine ⟨List.Sublist.trans ?_ (flow j p l hp hl).1, fun hf => by cases hf⟩
        exact List.Sublist.append_left hk _
      · exact flow j q l hq hl
    · intro j q hq hqe
      rcases tset_get hq with ⟨rfl, rfl⟩ | ⟨hj, hq⟩
      · rfl
      · exact ended j q hq hqe
    · rw [hcl] at closer
      refine ⟨hlen hp, fun j hj => ?_⟩
      show (s.upd i { p with todo := kept, closed := true }).closedAt j = _
      rw [closedAt_close hp rfl, closer.2 j hj]
      by_cases e : j = i
      · subst e; simp
      · rw [if_neg e]; exact decide_eq_decide.mpr (by omega)
  | @closeErr i p kept hcl hp hk =>
    refine ⟨by simp [TSys.upd, len], hcap, room, ?_, ?_, tags, shut, over, client, ?_⟩
    · intro j q l hq hl
      rcases tset_get hq with ⟨rfl, rfl⟩ | ⟨hj, hq⟩
      · refine ⟨List.Sublist.trans ?_ (flow j p l hp hl).1, fun hf => by cases hf⟩
        exact List.Sublist.append_left hk _
      · exact flow j q l hq hl
    · intro j q hq hqe
      rcases tset_get hq with ⟨rfl, rfl⟩ | ⟨hj, hq⟩
      · rfl
      · exact ended j q hq hqe
    · rw [hcl] at closer
      refine ⟨i, hlen hp, fun j hj => ?_⟩
      show (s.upd i { p with todo := kept, closed := true }).closedAt j = _
      rw [closedAt_close hp rfl, closer.2 j hj]
      by_cases e : j = i
      · subst e; simp
      · rw [if_neg e]; exact decide_eq_decide.mpr (by omega)
  | @closeAll i err hcl hp =>
    refine ⟨len, hcap, room, flow, ended, tags, shut, over, client, ?_⟩
    rw [hcl] at closer
    intro j hj
    have hi : ls.length ≤ i := by
      have := List.getElem?_eq_none_iff.mp hp
      omega
    show s.closedAt j = true
    rw [closer.2 j hj]
    exact decide_eq_true (by omega)

theorem tinv_steps {cap : Nat} {ls : List (List α)} {n : Nat} {s t : TSys α} (hs : TInv cap ls s) (h : TSys.Steps s n t) : TInv cap ls t := by
  induction h with
  | refl => exact hs
  | step _ hst ih => exact tinv_step ih hst

/-- **C112**, the order: from each partition the reader receives, in the order of the partition and each at most once, only messages of the partition; while the
partition consumer is open it is the first of them, without a gap; and nothing comes from elsewhere. -/
theorem C112_order {cap n : Nat} {ls : List (List α)} {s : TSys α} (h : TSys.Steps (.init cap ls) n s) :
    (∀ x, x ∈ s.got → x.1 < ls.length) ∧
    ∀ i p l, s.parts[i]? = some p → ls[i]? = some l → List.Sublist (ofPart i s.got) l ∧ (p.closed = false → ofPart i s.got <+: l) := by
  have hv := tinv_steps (tinv_init cap ls) h
  refine ⟨fun x hx => hv.tags x (List.mem_append_left _ hx), fun i p l hp hl => ?_⟩
  have hf := hv.flow i p l hp hl
  simp only [TSys.flow, List.append_assoc] at hf
  exact ⟨List.Sublist.trans (List.sublist_append_left _ _) hf.1, fun hc => ⟨_, hf.2 hc⟩⟩

/-- At rest, with a reader, the channel and the goroutines are empty. -/
theorem tquiet_empty {s : TSys α} (hq : TQuiet s) (hr : s.reader = .reading)
    (he : ∀ (i : Nat) p, s.parts[i]? = some p → p.ended = true → p.todo = []) :
    s.chan = [] ∧ ∀ (i : Nat) p, s.parts[i]? = some p → p.hand = none ∧ p.todo = [] := by
  have hc : s.chan = [] := by
    cases hc : s.chan with
    | nil => rfl
    | cons x rest =>
      rcases hq _ (.recv hc hr) with h | h
      · exact absurd rfl h
      · exact absurd rfl h
  refine ⟨hc, fun i p hp => ?_⟩
  have hh : p.hand = none := by
    cases hh : p.hand with
    | none => rfl
    | some m =>
      rcases hq _ (.meet hp hh hc hr) with h | h
      · exact absurd rfl h
      · exact absurd rfl h
  refine ⟨hh, ?_⟩
  cases ht : p.todo with
  | nil => rfl
  | cons m rest =>
    cases hen : p.ended with
    | true => rw [he i p hp hen] at ht; cases ht
    | false =>
      rcases hq _ (.read hp ht hh hen) with h | h
      · exact absurd rfl h
      · exact absurd rfl h

/-- A goroutine that has ended has received everything. -/
theorem tended_steps {cap n : Nat} {ls : List (List α)} {s : TSys α} (h : TSys.Steps (.init cap ls) n s) :
    ∀ (i : Nat) p, s.parts[i]? = some p → p.ended = true → p.todo = [] := by
  induction h with
  | refl =>
    intro i p hp he
    obtain ⟨l, _, rfl⟩ := tinit_get cap ls i p hp
    cases he
  | step _ hst ih =>
    intro j q hq hqe
    cases hst with
    | read hp ht hh he =>
      rcases tset_get hq with ⟨rfl, rfl⟩ | ⟨_, hq⟩
      · rw [he] at hqe; cases hqe
      · exact ih j q hq hqe
    | @send _ p _ hp =>
      rcases tset_get hq with ⟨rfl, rfl⟩ | ⟨_, hq⟩
      · exact ih _ p hp hqe
      · exact ih j q hq hqe
    | @meet _ p _ hp =>
      rcases tset_get hq with ⟨rfl, rfl⟩ | ⟨_, hq⟩
      · exact ih _ p hp hqe
      · exact ih j q hq hqe
    | recv => exact ih j q hq hqe
    | over => exact ih j q hq hqe
    | leave => exact ih j q hq hqe
    | stop hp ht =>
      rcases tset_get hq with ⟨rfl, rfl⟩ | ⟨_, hq⟩
      · exact ht
      · exact ih j q hq hqe
    | call => exact ih j q hq hqe
    | close _ hp hk =>
      rcases tset_get hq with ⟨rfl, rfl⟩ | ⟨_, hq⟩
      · have := ih _ _ hp hqe
        rw [this] at hk
        exact List.sublist_nil.mp hk
      · exact ih j q hq hqe
    | closeErr _ hp hk =>
      rcases tset_get hq with ⟨rfl, rfl⟩ | ⟨_, hq⟩
      · have := ih _ _ hp hqe
        rw [this] at hk
        exact List.sublist_nil.mp hk
      · exact ih j q hq hqe
    | closeAll => exact ih j q hq hqe

/-- **C112**, nothing is lost: a reader that goes on reading ends with all messages of every partition that was not closed, for every size of the buffer. -/
theorem C112_all {cap n : Nat} {ls : List (List α)} {s : TSys α} (h : TSys.Steps (.init cap ls) n s) (hq : TQuiet s) (hr : s.reader = .reading)
    {i : Nat} {p : TPart α} {l : List α} (hp : s.parts[i]? = some p) (hl : ls[i]? = some l) (hc : p.closed = false) : ofPart i s.got = l := by
  have hv := tinv_steps (tinv_init cap ls) h
  obtain ⟨h1, h2⟩ := tquiet_empty hq hr (tended_steps h)
  have := (hv.flow i p l hp hl).2 hc
  obtain ⟨hh, ht⟩ := h2 i p hp
  simpa [TSys.flow, h1, hh, ht, ofPart] using this

/-- **C112**, which partition consumers `Close` closes: all before it returns the result of the consumer; those up to the first that fails, and no later one,
when it returns an error before that; none when it has not been called. -/
theorem C112_close {cap n : Nat} {ls : List (List α)} {s : TSys α} (h : TSys.Steps (.init cap ls) n s) :
    (s.closer = .idle → ∀ p, p ∈ s.parts → p.closed = false) ∧
    (s.closer = .failed → ∃ i, i < ls.length ∧ ∀ (j : Nat) p, s.parts[j]? = some p → (p.closed = true ↔ j ≤ i)) ∧
    (∀ e, s.closer = .done e → ∀ p, p ∈ s.parts → p.closed = true) := by
  have hv := tinv_steps (tinv_init cap ls) h
  have get : ∀ {j : Nat} {p}, s.parts[j]? = some p → j < ls.length ∧ s.closedAt j = p.closed := by
    intro j p hp
    have := (List.getElem?_eq_some_iff.mp hp).1
    exact ⟨by have := hv.len; omega, by simp only [TSys.closedAt, hp]⟩
  have hc := hv.closer
  refine ⟨fun e p hp => ?_, fun e => ?_, fun b e p hp => ?_⟩
  · rw [e] at hc
    obtain ⟨j, hj⟩ := List.getElem?_of_mem hp
    rw [← (get hj).2]
    exact hc j (get hj).1
  · rw [e] at hc
    obtain ⟨i, hi, hcl⟩ := hc
    refine ⟨i, hi, fun j p hp => ?_⟩
    rw [← (get hp).2, hcl j (get hp).1]
    simp
  · rw [e] at hc
    obtain ⟨j, hj⟩ := List.getElem?_of_mem hp
    rw [← (get hj).2]
    exact hc j (get hj).1

/-- **C112**, the end: when `Close` has gone through all partitions and the reader goes on reading, all goroutines end. -/
theorem C112_stopped {cap n : Nat} {ls : List (List α)} {s : TSys α} (h : TSys.Steps (.init cap ls) n s) (hq : TQuiet s) (hr : s.reader = .reading) {e : Bool}
    (hc : s.closer = .done e) : ∀ p, p ∈ s.parts → p.ended = true := by
  have hv := tinv_steps (tinv_init cap ls) h
  obtain ⟨h1, h2⟩ := tquiet_empty hq hr (tended_steps h)
  intro p hp
  have hcl := (C112_close h).2.2 e hc p hp
  obtain ⟨j, hj⟩ := List.getElem?_of_mem hp
  obtain ⟨hh, ht⟩ := h2 j p hj
  cases hen : p.ended with
  | true => rfl
  | false =>
    rcases hq _ (.stop hj ht hh hcl hen) with h | h
    · exact absurd rfl h
    · exact absurd rfl h

/-- What is left to do. -/
def TPart.left (p : TPart α) : Nat := 3 * p.todo.length + 2 * p.hand.toList.length + (if p.ended then 0 else 1)

def TSys.partsLeft (s : TSys α) : Nat := (s.parts.map TPart.left).sum

def TSys.closerLeft (s : TSys α) : Nat :=
  match s.closer with
  | .idle => s.parts.length + 2
  | .at i => s.parts.length - i + 1
  | _ => 0

def TReader.left : TReader → Nat
  | .reading => 1
  | _ => 0

def TSys.left (s : TSys α) : Nat := s.partsLeft + s.chan.length + s.closerLeft + s.reader.left

theorem tsum_set {l : List (TPart α)} {i : Nat} {p : TPart α} (h : l[i]? = some p) (q : TPart α) :
    ((l.set i q).map TPart.left).sum + p.left = (l.map TPart.left).sum + q.left := by
  induction l generalizing i with
  | nil => cases h
  | cons a l ih =>
    cases i with
    | zero => simp at h; subst h; simp; omega
    | succ i => simp only [List.getElem?_cons_succ] at h; have := ih h; simp only [List.set_cons_succ, List.map_cons, List.sum_cons]; omega

/-- Every step leaves less to do. -/
theorem tleft_step {s u : TSys α} (h : TSys.Step s u) : u.left < s.left := by
  cases h with
  | @read i p m rest hp ht hh he =>
    have := tsum_set hp { p with todo := rest, hand := some m }
    simp only [TPart.left, ht, hh, Option.toList_none, Option.toList_some, List.length_cons, List.length_nil] at this
    simp only [TSys.left, TSys.partsLeft, TSys.closerLeft, TSys.upd, List.length_set] at this ⊢
    omega
  | @send i p m hp hh hr =>
    have := tsum_set hp { p with hand := none }
    simp only [TPart.left, hh, Option.toList_none, Option.toList_some, List.length_cons, List.length_nil] at this
    simp only [TSys.left, TSys.partsLeft, TSys.closerLeft, TSys.upd, List.length_set, List.length_append, List.length_singleton] at this ⊢
    omega
  | @meet i p m hp hh hc hr =>
    have := tsum_set hp { p with hand := none }
    simp only [TPart.left, hh, Option.toList_none, Option.toList_some, List.length_cons, List.length_nil] at this
    simp only [TSys.left, TSys.partsLeft, TSys.closerLeft, TSys.upd, List.length_set] at this ⊢
    omega
  | recv hc hr =>
    simp only [TSys.left, TSys.partsLeft, TSys.closerLeft, hc, List.length_cons]
    omega
  | over hc hs hr =>
    simp only [TSys.left, TSys.partsLeft, TSys.closerLeft, hr, TReader.left]
    omega
  | leave hr =>
    simp only [TSys.left, TSys.partsLeft, TSys.closerLeft, hr, TReader.left]
    omega
  | @stop i p hp ht hh hc he =>
    have := tsum_set hp { p with ended := true }
    simp only [TPart.left, he] at this
    simp only [TSys.left, TSys.partsLeft, TSys.closerLeft, TSys.upd, List.length_set] at this ⊢
    simp at this ⊢
    omega
  | call hc =>
    simp only [TSys.left, TSys.partsLeft, TSys.closerLeft, hc]
    omega
  | @close i p kept hc hp hk =>
    have := tsum_set hp { p with todo := kept, closed := true }
    have hl := hk.length_le
    have hlt := (List.getElem?_eq_some_iff.mp hp).1
    simp only [TPart.left] at this
    simp only [TSys.left, TSys.partsLeft, TSys.closerLeft, TSys.upd, List.length_set, hc] at this ⊢
    omega
  | @closeErr i p kept hc hp hk =>
    have := tsum_set hp { p with todo := kept, closed := true }
    have hl := hk.length_le
    have hlt := (List.getElem?_eq_some_iff.mp hp).1
    simp only [TPart.left] at this
    simp only [TSys.left, TSys.partsLeft, TSys.closerLeft, TSys.upd, hc] at this ⊢
    omega
  | closeAll e hc hp =>
    simp only [TSys.left, TSys.partsLeft, TSys.closerLeft, hc]
    omega

/-- **C112**: executions are finite, of at most three steps for a message and two for a partition, and three for the reader and the call of `Close`. -/
theorem C112_ends {cap n : Nat} {ls : List (List α)} {s : TSys α} (h : TSys.Steps (.init cap ls) n s) : n ≤ 3 * (ls.map List.length).sum + 2 * ls.length + 3 := by
  have key : n + s.left ≤ (TSys.init cap ls).left := by
    induction h with
    | refl => omega
    | step _ hst ih => have := tleft_step hst; omega
  have h0 : (TSys.init cap ls).partsLeft = 3 * (ls.map List.length).sum + ls.length := by
    simp only [TSys.partsLeft, TSys.init]
    clear key h
    induction ls with
    | nil => rfl
    | cons a l ih => simp only [List.map_cons, List.sum_cons, List.length_cons, ih, TPart.left, TPart.opened]; simp; omega
  have h1 : (TSys.init cap ls).closerLeft = ls.length + 2 := by simp [TSys.closerLeft, TSys.init]
  simp only [TSys.left, h0, h1] at key
  simp [TSys.init, TReader.left] at key
  omega

theorem TSys.Steps.trans {s t u : TSys α} {n m : Nat} (h : TSys.Steps s n t) (h' : TSys.Steps t m u) : TSys.Steps s (n + m) u := by
  induction h' with
  | refl => exact h
  | step _ hst ih => exact .step ih hst

/-- **C112 fails** for the end of the reader: the channel is never closed, so that a loop over `Messages()` does not end, whatever happens. -/
theorem C112_refuted_range {cap n : Nat} {ls : List (List α)} {s : TSys α} (h : TSys.Steps (.init cap ls) n s) : s.shut = false ∧ s.reader ≠ .over := by
  have hv := tinv_steps (tinv_init cap ls) h
  exact ⟨hv.shut, hv.over⟩

/-- **C112 fails** for the client: no execution closes it. -/
theorem C112_refuted_client {cap n : Nat} {ls : List (List α)} {s : TSys α} (h : TSys.Steps (.init cap ls) n s) : s.clientClosed = false :=
  (tinv_steps (tinv_init cap ls) h).client

/-- A goroutine that has a message for a full channel that nobody reads keeps it for ever. -/
theorem tblocked {s t : TSys α} {n i : Nat} {m : α} (h : TSys.Steps s n t) (hr : s.reader = .away) (hfull : s.cap ≤ s.chan.length) {p : TPart α}
    (hp : s.parts[i]? = some p) (hh : p.hand = some m) (he : p.ended = false) :
    t.reader = .away ∧ t.cap ≤ t.chan.length ∧ ∃ q, t.parts[i]? = some q ∧ q.hand = some m ∧ q.ended = false := by
  induction h with
  | refl => exact ⟨hr, hfull, p, hp, hh, he⟩
  | step _ hst ih =>
    obtain ⟨ir, ifull, q, iq, ih, ie⟩ := ih
    have keep : ∀ {l : List (TPart α)} {j : Nat} {x y : TPart α}, l[j]? = some x → l[i]? = some q → (x.hand = some m → x.ended = false → y.hand = some m ∧ y.ended = false) →
        ∃ q, (l.set j y)[i]? = some q ∧ q.hand = some m ∧ q.ended = false := by
      intro l j x y hx hq hxy
      by_cases e : i = j
      · subst e
        rw [hq] at hx
        cases hx
        obtain ⟨a, b⟩ := hxy ih ie
        exact ⟨y, by rw [List.getElem?_set_self (List.getElem?_eq_some_iff.mp hq).1], a, b⟩
      · exact ⟨q, by rw [List.getElem?_set_ne (Ne.symm e)]; exact hq, ih, ie⟩
    cases hst with
    | read h1 h2 h3 h4 => exact ⟨ir, ifull, keep h1 iq (fun a => by rw [h3] at a; cases a)⟩
    | send h1 h2 h3 => omega
    | meet h1 h2 h3 h4 => rw [ir] at h4; cases h4
    | recv h1 h2 => rw [ir] at h2; cases h2
    | over h1 h2 h3 => rw [ir] at h3; cases h3
    | leave h1 => rw [ir] at h1; cases h1
    | stop h1 h2 h3 => exact ⟨ir, ifull, keep h1 iq (fun a => by rw [h3] at a; cases a)⟩
    | call => exact ⟨ir, ifull, q, iq, ih, ie⟩
    | close h1 h2 => exact ⟨ir, ifull, keep h2 iq (fun a b => ⟨a, b⟩)⟩
    | closeErr h1 h2 => exact ⟨ir, ifull, keep h2 iq (fun a b => ⟨a, b⟩)⟩
    | closeAll => exact ⟨ir, ifull, q, iq, ih, ie⟩

/-- A channel that nobody reads fills up. -/
theorem tfill (cap : Nat) (l : List α) (k : Nat) (hk : k ≤ cap) (hl : k ≤ l.length) :
    TSys.Steps (.init cap [l]) (1 + 2 * k) ⟨[⟨l.drop k, none, false, false⟩], (l.take k).map (fun m => (0, m)), cap, false, [], .away, .idle, false⟩ := by
  induction k with
  | zero => exact .step .refl (.leave rfl)
  | succ k ih =>
    have h0 := ih (by omega) (by omega)
    obtain ⟨m, hm⟩ : ∃ m, l[k]? = some m := ⟨_, List.getElem?_eq_getElem (by omega)⟩
    have hd : l.drop k = m :: l.drop (k + 1) := by
      rw [List.drop_eq_getElem_cons (by omega)]
      congr 1
      rw [List.getElem?_eq_getElem (by omega)] at hm
      exact Option.some.inj hm
    have h1 := h0.step (.read (i := 0) rfl hd rfl rfl)
    have h2 := h1.step (.send (i := 0) (m := m) rfl rfl (by simp only [TSys.upd, List.length_map, List.length_take]; omega))
    have ht : l.take (k + 1) = l.take k ++ [m] := by rw [List.take_add_one, hm]; rfl
    rw [show 1 + 2 * (k + 1) = 1 + 2 * k + 1 + 1 by omega]
    simp only [TSys.upd, List.set_cons_zero] at h2
    rw [ht, List.map_append]
    exact h2

/-- **C112 fails** for the goroutines when the reader has left: for every size of the buffer, when a partition has more messages than that there is an execution
in which `Close` succeeds and the goroutine of the partition never ends. -/
theorem C112_refuted (cap : Nat) (l : List α) (hl : cap < l.length) :
    ∃ n s, TSys.Steps (.init cap [l]) n s ∧ s.closer = .done false ∧ ∀ m t, TSys.Steps s m t → ∃ p, t.parts[0]? = some p ∧ p.ended = false := by
  have h0 := tfill cap l cap (Nat.le_refl _) (by omega)
  obtain ⟨m, rest, hd⟩ : ∃ m rest, l.drop cap = m :: rest := ⟨_, _, List.drop_eq_getElem_cons (by omega)⟩
  have h1 := h0.step (.read (i := 0) rfl hd rfl rfl)
  have h2 := h1.step (.call rfl)
  have h3 := h2.step (.close (i := 0) rfl rfl (List.Sublist.refl _))
  have h4 := h3.step (.closeAll (i := 1) false rfl rfl)
  refine ⟨_, _, h4, rfl, fun m' t ht => ?_⟩
  obtain ⟨_, _, q, hq, _, he⟩ := tblocked (i := 0) (m := m) ht rfl (by simp [TSys.upd]; omega) rfl rfl rfl
  exact ⟨q, hq, he⟩

/-- A partition consumer that is open when `Close` cannot be called any more stays open, and its goroutine does not end. -/
theorem topen_forever {s t : TSys α} {n i : Nat} (h : TSys.Steps s n t) (hc : s.closer = .failed ∨ s.closer = .lost) {p : TPart α} (hp : s.parts[i]? = some p)
    (hcl : p.closed = false) (he : p.ended = false) :
    t.closer = s.closer ∧ ∃ q, t.parts[i]? = some q ∧ q.closed = false ∧ q.ended = false := by
  induction h with
  | refl => exact ⟨rfl, p, hp, hcl, he⟩
  | @step n t u _ hst ih =>
    obtain ⟨ic, q, iq, ih, ie⟩ := ih
    have no : ∀ {P : Prop}, t.closer = .idle ∨ (∃ i, t.closer = .at i) → P := by
      intro P h
      rw [ic] at h
      rcases h with h | ⟨_, h⟩ <;> rcases hc with e | e <;> rw [e] at h <;> cases h
    have keep : ∀ {l : List (TPart α)} {j : Nat} {x y : TPart α}, l[j]? = some x → l[i]? = some q → (x.closed = false → x.ended = false → y.closed = false ∧ y.ended = false) →
        ∃ q, (l.set j y)[i]? = some q ∧ q.closed = false ∧ q.ended = false := by
      intro l j x y hx hq hxy
      by_cases e : i = j
      · subst e
        rw [hq] at hx
        cases hx
        obtain ⟨a, b⟩ := hxy ih ie
        exact ⟨y, by rw [List.getElem?_set_self (List.getElem?_eq_some_iff.mp hq).1], a, b⟩
      · exact ⟨q, by rw [List.getElem?_set_ne (Ne.symm e)]; exact hq, ih, ie⟩
    cases hst with
    | read h1 => exact ⟨ic, keep h1 iq (fun a b => ⟨a, b⟩)⟩
    | send h1 => exact ⟨ic, keep h1 iq (fun a b => ⟨a, b⟩)⟩
    | meet h1 => exact ⟨ic, keep h1 iq (fun a b => ⟨a, b⟩)⟩
    | recv => exact ⟨ic, q, iq, ih, ie⟩
    | over => exact ⟨ic, q, iq, ih, ie⟩
    | leave => exact ⟨ic, q, iq, ih, ie⟩
    | stop h1 h2 h3 h4 => exact ⟨ic, keep h1 iq (fun a => by rw [h4] at a; cases a)⟩
    | call h1 => exact no (.inl h1)
    | close h1 => exact no (.inr ⟨_, h1⟩)
    | closeErr h1 => exact no (.inr ⟨_, h1⟩)
    | closeAll _ h1 => exact no (.inr ⟨_, h1⟩)

/-- **C112 fails** for the goroutines when `Close` returns an error: in every execution in which the error is not from the last partition there is a partition
consumer that stays open for ever, and its goroutine does not end. -/
theorem C112_refuted_error {cap n : Nat} {ls : List (List α)} {s : TSys α} (h : TSys.Steps (.init cap ls) n s) (hf : s.closer = .failed) {p : TPart α} {i : Nat}
    (hp : s.parts[i]? = some p) (hc : p.closed = false) {m : Nat} {t : TSys α} (ht : TSys.Steps s m t) :
    ∃ q, t.parts[i]? = some q ∧ q.closed = false ∧ q.ended = false := by
  have hv := tinv_steps (tinv_init cap ls) h
  have he : p.ended = false := by
    cases he : p.ended with
    | false => rfl
    | true => rw [hv.ended i p hp he] at hc; cases hc
  exact (topen_forever ht (.inl hf) hp hc he).2

/-- **C112**, making: when everything that it asks Sarama for succeeds, `NewTopicConsumer` gives a topic consumer of all partitions. -/
theorem C112_made (buffer : Nat) (ls : List (List α)) : newTopicConsumer buffer true true (some (ls.map some)) = .ok (.init buffer ls) := by
  have : topicLoop (ls.map some) = (ls, true) := by
    induction ls with
    | nil => rfl
    | cons a l ih => simp only [List.map_cons, topicLoop, ih]
  have hb : ¬ ((buffer : Int) < 0) := by omega
  simp [newTopicConsumer, this, hb]

/-- **C112**, making: only then. The client, the consumer, the list of partitions and every partition consumer must have been obtained, and the topic
consumer is that of all partitions. -/
theorem C112_made_only {buffer : Int} {client consumer : Bool} {parts : Option (List (TConsume α))} {tc : TSys α} :
    newTopicConsumer buffer client consumer parts = .ok tc ↔
      client = true ∧ consumer = true ∧ 0 ≤ buffer ∧ ∃ ls, parts = some (ls.map some) ∧ tc = .init buffer.toNat ls := by
  have hloop : ∀ rs : List (TConsume α), (topicLoop rs).2 = true → rs = (topicLoop rs).1.map some := by
    intro rs
    induction rs with
    | nil => intro _; rfl
    | cons r rs ih =>
      cases r with
      | none => intro h; simp [topicLoop] at h
      | some l =>
        intro h
        simp only [topicLoop] at h ⊢
        rw [List.map_cons, ← ih h]
  constructor
  · intro h
    unfold newTopicConsumer at h
    split at h
    · cases h
    rename_i hcc
    simp only [Bool.or_eq_true, Bool.not_eq_true', not_or, Bool.not_eq_false] at hcc
    split at h
    · cases h
    rename_i hb
    cases parts with
    | none => cases h
    | some rs =>
      simp only at h
      split at h
      · rename_i hok
        cases h
        exact ⟨hcc.1, hcc.2, by omega, _, congrArg some (hloop rs hok), rfl⟩
      · cases h
  · rintro ⟨rfl, rfl, hb, ls, rfl, rfl⟩
    obtain ⟨n, rfl⟩ : ∃ n : Nat, buffer = n := ⟨buffer.toNat, by omega⟩
    simpa using C112_made n ls

/-- **C112 fails** for the goroutines when a partition cannot be consumed: `NewTopicConsumer` returns an error, and the goroutines of the partitions before it
run for ever: nobody can close their partition consumers, and nobody reads what they send. -/
theorem C112_refuted_made (buffer : Nat) (ls : List (List α)) (rest : List (TConsume α)) :
    ∃ left, newTopicConsumer buffer true true (some (ls.map some ++ none :: rest)) = .err left ∧ left.parts.length = ls.length ∧
      ∀ n t, TSys.Steps left n t → t.parts.length = ls.length ∧ t.got = [] ∧ ∀ p, p ∈ t.parts → p.closed = false ∧ p.ended = false := by
  have : topicLoop (ls.map some ++ none :: rest) = (ls, false) := by
    induction ls with
    | nil => rfl
    | cons a l ih => simp only [List.map_cons, List.cons_append, topicLoop, ih]
  have hb : ¬ ((buffer : Int) < 0) := by omega
  refine ⟨.lost buffer ls, by simp [newTopicConsumer, this, hb], by simp [TSys.lost, TSys.init], fun n t ht => ?_⟩
  have hlen : t.parts.length = ls.length := by
    clear this hb
    induction ht with
    | refl => simp [TSys.lost, TSys.init]
    | step _ hst ih => cases hst <;> simpa [TSys.upd] using ih
  have hgot : t.reader = .away ∧ t.got = [] := by
    clear this hb hlen
    induction ht with
    | refl => exact ⟨rfl, rfl⟩
    | step _ hst ih =>
      cases hst with
      | meet _ _ _ h => rw [ih.1] at h; cases h
      | recv _ h => rw [ih.1] at h; cases h
      | over _ _ h => rw [ih.1] at h; cases h
      | _ => first | exact ih | exact ⟨rfl, ih.2⟩
  refine ⟨hlen, hgot.2, fun p hp => ?_⟩
  obtain ⟨j, hj⟩ := List.getElem?_of_mem hp
  have hlt := (List.getElem?_eq_some_iff.mp hj).1
  obtain ⟨_, q, hq, h1, h2⟩ := topen_forever (i := j) (p := .opened (ls[j]'(by omega))) ht (.inr rfl)
    (by simp only [TSys.lost, TSys.init, List.getElem?_map, List.getElem?_eq_getElem (show j < ls.length by omega), Option.map_some]) rfl rfl
  rw [hj] at hq
  cases hq
  exact ⟨h1, h2⟩

/-- Cases that meet the hypotheses of `C112_order`, `C112_all` and `C112_close`: a consumer of two partitions without a buffer, whose reader has received everything. -/
def exTopic : TSys Nat := ⟨[⟨[], none, false, false⟩, ⟨[], none, false, false⟩], [], 0, false, [(1, 20), (0, 10), (0, 11)], .reading, .idle, false⟩

theorem exTopic_steps : TSys.Steps (.init 0 [[10, 11], [20]]) 6 exTopic := by
  have h0 : TSys.Steps (.init 0 [[10, 11], [20]]) 0 _ := .refl
  have h1 := h0.step (.read (i := 0) rfl rfl rfl rfl)
  have h2 := h1.step (.read (i := 1) rfl rfl rfl rfl)
  have h3 := h2.step (.meet (i := 1) rfl rfl rfl rfl)
  have h4 := h3.step (.meet (i := 0) rfl rfl rfl rfl)
  have h5 := h4.step (.read (i := 0) rfl rfl rfl rfl)
  have h6 := h5.step (.meet (i := 0) rfl rfl rfl rfl)
  exact h6

theorem two_get {P : TPart α → Prop} {a b : TPart α} (ha : P a) (hb : P b) {i : Nat} {p : TPart α} (h : [a, b][i]? = some p) : P p := by
  match i, h with
  | 0, h => cases h; exact ha
  | 1, h => cases h; exact hb

example : TQuiet exTopic := by
  intro u hu
  have empty : ∀ {i : Nat} {p : TPart Nat}, exTopic.parts[i]? = some p → p.todo = [] ∧ p.hand = none ∧ p.closed = false :=
    fun h => two_get (P := fun p => p.todo = [] ∧ p.hand = none ∧ p.closed = false) ⟨rfl, rfl, rfl⟩ ⟨rfl, rfl, rfl⟩ h
  cases hu with
  | read h1 h2 => rw [(empty h1).1] at h2; cases h2
  | send h1 h2 => rw [(empty h1).2.1] at h2; cases h2
  | meet h1 h2 => rw [(empty h1).2.1] at h2; cases h2
  | recv h1 => cases h1
  | over _ h1 => cases h1
  | leave => exact .inl (by decide)
  | stop h1 _ _ h2 => rw [(empty h1).2.2] at h2; cases h2
  | call => exact .inr (by decide)
  | close h1 => cases h1
  | closeErr h1 => cases h1
  | closeAll _ h1 => cases h1

/-- A case that meets the hypotheses of `C112_stopped`: the same consumer after `Close`. -/
def exTopicEnd : TSys Nat := ⟨[⟨[], none, true, true⟩, ⟨[], none, true, true⟩], [], 0, false, [(1, 20), (0, 10), (0, 11)], .reading, .done false, false⟩

example : TSys.Steps (.init 0 [[10, 11], [20]]) 12 exTopicEnd := by
  have h1 := exTopic_steps.step (.call rfl)
  have h2 := h1.step (.close (i := 0) rfl rfl (List.Sublist.refl _))
  have h3 := h2.step (.close (i := 1) rfl rfl (List.Sublist.refl _))
  have h4 := h3.step (.closeAll (i := 2) false rfl rfl)
  have h5 := h4.step (.stop (i := 0) rfl rfl rfl rfl rfl)
  have h6 := h5.step (.stop (i := 1) rfl rfl rfl rfl rfl)
  exact h6

example : TQuiet exTopicEnd := by
  intro u hu
  have empty : ∀ {i : Nat} {p : TPart Nat}, exTopicEnd.parts[i]? = some p → p.todo = [] ∧ p.hand = none ∧ p.ended = true :=
    fun h => two_get (P := fun p => p.todo = [] ∧ p.hand = none ∧ p.ended = true) ⟨rfl, rfl, rfl⟩ ⟨rfl, rfl, rfl⟩ h
  cases hu with
  | read h1 h2 => rw [(empty h1).1] at h2; cases h2
  | send h1 h2 => rw [(empty h1).2.1] at h2; cases h2
  | meet h1 h2 => rw [(empty h1).2.1] at h2; cases h2
  | recv h1 => cases h1
  | over _ h1 => cases h1
  | leave => exact .inl (by decide)
  | stop h1 _ _ _ h2 => rw [(empty h1).2.2] at h2; cases h2
  | call h1 => cases h1
  | close h1 => cases h1
  | closeErr h1 => cases h1
  | closeAll _ h1 => cases h1

/-- A case that meets the hypotheses of `C112_refuted_error`: closing the first of two partition consumers fails. -/
example : ∃ s p, TSys.Steps (.init 0 [[10, 11], [20]]) 8 s ∧ s.closer = .failed ∧ s.parts[1]? = some p ∧ p.closed = false := by
  have h1 := exTopic_steps.step (.call rfl)
  have h2 := h1.step (.closeErr (i := 0) rfl rfl (List.Sublist.refl _))
  exact ⟨_, _, h2, rfl, rfl, rfl⟩

end Verif
