import Verif.Model.MuxReady
/-!
# C109: `Ready` of a muxed consumer
-/
namespace Verif

/-- Some transport has become ready. -/
def Spec.someReady (s : MSys) : Prop := ∃ (i : Nat) (t : MTransport), s.ts[i]? = some t ∧ t.state ≠ .cold

/-- Nothing can happen any more. -/
def Spec.MStuck (s : MSys) : Prop := ∀ t, ¬ MSys.Step s t

/-- A call has been answered. -/
def Spec.Answered : MReader → Prop
  | .waiting _ => False
  | _ => True

open Spec

theorem mset_get {α : Type} {l : List α} {i j : Nat} {x y : α} (h : (l.set i x)[j]? = some y) : (j = i ∧ y = x ∧ i < l.length) ∨ (j ≠ i ∧ l[j]? = some y) := by
  rw [List.getElem?_set] at h
  split at h
  · rename_i e
    split at h
    · simp only [Option.some.injEq] at h; exact .inl ⟨e.symm, h.symm, by assumption⟩
    · cases h
  · rename_i e; exact .inr ⟨fun c => e c.symm, h⟩

/-- The invariant. -/
structure MInv (ks : List MKind) (n : Nat) (s : MSys) : Prop where
  len : s.ts.length = ks.length
  num : s.readers.length = n
  plain : ∀ (i : Nat) t, s.ts[i]? = some t → t.kind ≠ .kafka → t.state = .cold ∨ t.state = .open
  null : ∀ (i : Nat) t, s.ts[i]? = some t → t.kind = .null → t.state = .open
  few : ∀ (r : Nat) l, s.readers[r]? = some (.waiting l) → l.length ≤ s.ts.length
  own : ∀ (r : Nat) l (i : Nat) t, s.readers[r]? = some (.waiting l) → l[i]? = some .own → s.ts[i]? = some t → t.state = .open
  shared : ∀ (r : Nat) l (i : Nat) t, s.readers[r]? = some (.waiting l) → l[i]? = some .shared → s.ts[i]? = some t → t.kind ≠ .null
  sound : ∀ (r : Nat) x, s.readers[r]? = some x → Answered x → someReady s
  used : ∀ (i : Nat) t, s.ts[i]? = some t → t.kind = .kafka → t.state = .sent ∨ t.state = .open → ∃ (r : Nat) (x : MReader), s.readers[r]? = some x ∧ Answered x

theorem minv_init (ks : List MKind) (n : Nat) : MInv ks n (.init ks n) := by
  have hts : ∀ (i : Nat) t, (MSys.init ks n).ts[i]? = some t → ∃ k, t = ⟨k, if k = .null then .open else .cold⟩ := by
    intro i t h
    simp only [MSys.init, List.getElem?_map, Option.map_eq_some_iff] at h
    obtain ⟨k, _, e⟩ := h
    exact ⟨k, e.symm⟩
  have hr : ∀ (r : Nat) x, (MSys.init ks n).readers[r]? = some x → x = .waiting [] := by
    intro r x h
    simp only [MSys.init, List.getElem?_replicate] at h
    split at h <;> simp_all
  refine ⟨by simp [MSys.init], by simp [MSys.init], ?_, ?_, ?_, ?_, ?_, ?_, ?_⟩
  · intro i t h hk
    obtain ⟨k, rfl⟩ := hts i t h
    simp only; split <;> simp
  · intro i t h hk
    obtain ⟨k, rfl⟩ := hts i t h
    have hk : k = .null := hk
    simp [hk]
  · intro r l h; have := hr r _ h; cases this; exact Nat.zero_le _
  · intro r l i t h hl; have := hr r _ h; cases this; simp at hl
  · intro r l i t h hl; have := hr r _ h; cases this; simp at hl
  · intro r x h ha; have := hr r _ h; subst this; exact ha.elim
  · intro i t h hk hs
    obtain ⟨k, rfl⟩ := hts i t h
    have hk : k = .kafka := hk
    subst hk
    simp at hs

theorem MTransport.ready_own {t : MTransport} (h : t.ready = .own) : (t.kind = .kafka ∧ t.state = .open) ∨ t.kind = .null := by
  obtain ⟨k, st⟩ := t
  cases k <;> cases st <;> simp_all [MTransport.ready]

theorem MTransport.ready_shared {t : MTransport} (h : t.ready = .shared) : t.kind ≠ .null := by
  obtain ⟨k, st⟩ := t
  cases k <;> cases st <;> simp_all [MTransport.ready]

theorem minv_step {ks : List MKind} {n : Nat} {s u : MSys} (hv : MInv ks n s) (h : MSys.Step s u) : MInv ks n u := by
  cases h with
  | @warm i k hi hk =>
    have hold : ∀ (j : Nat) t, (s.ts.set i ⟨k, if k = .kafka then .offering else .open⟩)[j]? = some t →
        (j = i ∧ t = ⟨k, if k = .kafka then .offering else .open⟩) ∨ (j ≠ i ∧ s.ts[j]? = some t) := fun j t h => by
      rcases mset_get h with ⟨a, b, _⟩ | h
      · exact .inl ⟨a, b⟩
      · exact .inr h
    have hsome : someReady { s with ts := s.ts.set i ⟨k, if k = .kafka then .offering else .open⟩ } :=
      ⟨i, _, List.getElem?_set_self (List.getElem?_eq_some_iff.mp hi).1, by simp only; split <;> simp⟩
    refine ⟨by simpa using hv.len, hv.num, ?_, ?_, ?_, ?_, ?_, fun _ _ _ _ => hsome, ?_⟩
    · intro j t h hk'
      rcases hold j t h with ⟨_, rfl⟩ | ⟨_, h⟩
      · have hk' : k ≠ .kafka := hk'
        simp [hk']
      · exact hv.plain j t h hk'
    · intro j t h hk'
      rcases hold j t h with ⟨_, rfl⟩ | ⟨_, h⟩
      · exact absurd hk' hk
      · exact hv.null j t h hk'
    · intro r l h; simpa using hv.few r l h
    · intro r l j t h hl ht
      rcases hold j t ht with ⟨rfl, rfl⟩ | ⟨_, ht⟩
      · have := hv.own r l j _ h hl hi; cases this
      · exact hv.own r l j t h hl ht
    · intro r l j t h hl ht
      rcases hold j t ht with ⟨rfl, rfl⟩ | ⟨_, ht⟩
      · exact hk
      · exact hv.shared r l j t h hl ht
    · intro j t h hk' hs
      rcases hold j t h with ⟨_, rfl⟩ | ⟨_, h⟩
      · have hk' : k = .kafka := hk'
        simp [hk'] at hs
      · exact hv.used j t h hk' hs
  | @forget i k hi =>
    have hk : k = .kafka := by
      cases hk : k with
      | kafka => rfl
      | _ => rw [hk] at hi; rcases hv.plain i _ hi (by simp) with h | h <;> cases h
    subst hk
    have hold : ∀ (j : Nat) t, (s.ts.set i ⟨.kafka, .open⟩)[j]? = some t → (j = i ∧ t = ⟨.kafka, .open⟩) ∨ (j ≠ i ∧ s.ts[j]? = some t) := fun j t h => by
      rcases mset_get h with ⟨a, b, _⟩ | h
      · exact .inl ⟨a, b⟩
      · exact .inr h
    have hsome : someReady { s with ts := s.ts.set i ⟨.kafka, .open⟩ } := ⟨i, _, List.getElem?_set_self (List.getElem?_eq_some_iff.mp hi).1, by simp⟩
    refine ⟨by simpa using hv.len, hv.num, ?_, ?_, ?_, ?_, ?_, fun _ _ _ _ => hsome, ?_⟩
    · intro j t h hk'
      rcases hold j t h with ⟨_, rfl⟩ | ⟨_, h⟩
      · exact absurd rfl hk'
      · exact hv.plain j t h hk'
    · intro j t h hk'
      rcases hold j t h with ⟨_, rfl⟩ | ⟨_, h⟩
      · cases hk'
      · exact hv.null j t h hk'
    · intro r l h; simpa using hv.few r l h
    · intro r l j t h hl ht
      rcases hold j t ht with ⟨rfl, rfl⟩ | ⟨_, ht⟩
      · rfl
      · exact hv.own r l j t h hl ht
    · intro r l j t h hl ht
      rcases hold j t ht with ⟨rfl, rfl⟩ | ⟨_, ht⟩
      · simp
      · exact hv.shared r l j t h hl ht
    · intro j t h hk' hs
      rcases hold j t h with ⟨_, rfl⟩ | ⟨_, h⟩
      · exact hv.used i _ hi rfl (.inl rfl)
      · exact hv.used j t h hk' hs
  | @ask r chans t hr ht =>
    have hold : ∀ (q : Nat) x, (s.readers.set r (.waiting (chans ++ [t.ready])))[q]? = some x →
        (q = r ∧ x = .waiting (chans ++ [t.ready])) ∨ (q ≠ r ∧ s.readers[q]? = some x) := fun q x h => by
      rcases mset_get h with ⟨a, b, _⟩ | h
      · exact .inl ⟨a, b⟩
      · exact .inr h
    have hlt := (List.getElem?_eq_some_iff.mp ht).1
    refine ⟨hv.len, by simpa using hv.num, hv.plain, hv.null, ?_, ?_, ?_, ?_, ?_⟩
    · intro q l h
      rcases hold q _ h with ⟨_, e⟩ | ⟨_, h⟩
      · cases e; simp only [List.length_append, List.length_singleton]; exact hlt
      · exact hv.few q l h
    · intro q l j t' h hl ht'
      have ht' : s.ts[j]? = some t' := ht'
      rcases hold q _ h with ⟨_, e⟩ | ⟨_, h⟩
      · cases e
        rw [List.getElem?_append] at hl
        split at hl
        · exact hv.own r chans j t' hr hl ht'
        · rename_i hj
          have hj' : j = chans.length := by
            have := (List.getElem?_eq_some_iff.mp hl).1
            simp only [List.length_singleton] at this; omega
          subst hj'
          rw [ht] at ht'; cases ht'
          simp only [Nat.sub_self, List.getElem?_cons_zero, Option.some.injEq] at hl
          rcases MTransport.ready_own hl with ⟨_, h⟩ | h
          · exact h
          · exact hv.null _ t ht h
      · exact hv.own q l j t' h hl ht'
    · intro q l j t' h hl ht'
      have ht' : s.ts[j]? = some t' := ht'
      rcases hold q _ h with ⟨_, e⟩ | ⟨_, h⟩
      · cases e
        rw [List.getElem?_append] at hl
        split at hl
        · exact hv.shared r chans j t' hr hl ht'
        · rename_i hj
          have hj' : j = chans.length := by
            have := (List.getElem?_eq_some_iff.mp hl).1
            simp only [List.length_singleton] at this; omega
          subst hj'
          rw [ht] at ht'; cases ht'
          simp only [Nat.sub_self, List.getElem?_cons_zero, Option.some.injEq] at hl
          exact MTransport.ready_shared hl
      · exact hv.shared q l j t' h hl ht'
    · intro q x h ha
      rcases hold q _ h with ⟨_, rfl⟩ | ⟨_, h⟩
      · exact ha.elim
      · exact hv.sound q x h ha
    · intro i t' h hk hs
      obtain ⟨q, x, hq, ha⟩ := hv.used i t' h hk hs
      refine ⟨q, x, ?_, ha⟩
      have hne : q ≠ r := by rintro rfl; rw [hr] at hq; cases hq; exact ha.elim
      show (s.readers.set r _)[q]? = some x
      rw [List.getElem?_set_ne (fun e => hne e.symm)]; exact hq
  | @choose r chans i t c hr hlen hi hc hg =>
    have hlt := (List.getElem?_eq_some_iff.mp hi).1
    have hold : ∀ (j : Nat) t', (s.ts.set i (t.taken c))[j]? = some t' → (j = i ∧ t' = t.taken c) ∨ (j ≠ i ∧ s.ts[j]? = some t') := fun j t h => by
      rcases mset_get h with ⟨a, b, _⟩ | h
      · exact .inl ⟨a, b⟩
      · exact .inr h
    have holdr : ∀ (q : Nat) x, (s.readers.set r MReader.sending)[q]? = some x → (q = r ∧ x = .sending) ∨ (q ≠ r ∧ s.readers[q]? = some x) := fun q x h => by
      rcases mset_get h with ⟨a, b, _⟩ | h
      · exact .inl ⟨a, b⟩
      · exact .inr h
    have hkind : (t.taken c).kind = t.kind := by
      obtain ⟨k, st⟩ := t
      cases c <;> cases k <;> rfl
    have hplain : t.kind ≠ .kafka → t.taken c = t := by
      obtain ⟨k, st⟩ := t
      cases c <;> cases k <;> simp [MTransport.taken]
    have hopen : t.state = .open → t.taken c = t := by
      obtain ⟨k, st⟩ := t
      rintro rfl
      cases c <;> cases k <;> simp_all [MTransport.taken, MTransport.gives]
    have hne : (t.taken c).state ≠ .cold := by
      cases c with
      | own => show t.state ≠ .cold; rw [hv.own r chans i t hr hc hi]; simp
      | shared =>
        obtain ⟨k, st⟩ := t
        cases k <;> cases st <;> simp_all [MTransport.taken, MTransport.gives]
    have hsome : someReady { ts := s.ts.set i (t.taken c), readers := s.readers.set r .sending } := ⟨i, _, List.getElem?_set_self hlt, hne⟩
    have hrlt := (List.getElem?_eq_some_iff.mp hr).1
    refine ⟨by simpa using hv.len, by simpa using hv.num, ?_, ?_, ?_, ?_, ?_, fun _ _ _ _ => hsome,
      fun _ _ _ _ _ => ⟨r, .sending, List.getElem?_set_self hrlt, trivial⟩⟩
    · intro j t' h hk
      rcases hold j t' h with ⟨_, rfl⟩ | ⟨_, h⟩
      · rw [hkind] at hk; rw [hplain hk]; exact hv.plain i t hi hk
      · exact hv.plain j t' h hk
    · intro j t' h hk
      rcases hold j t' h with ⟨_, rfl⟩ | ⟨_, h⟩
      · rw [hkind] at hk; rw [hplain (by rw [hk]; simp)]; exact hv.null i t hi hk
      · exact hv.null j t' h hk
    · intro q l h
      rcases holdr q _ h with ⟨_, e⟩ | ⟨_, h⟩
      · cases e
      · simpa using hv.few q l h
    · intro q l j t' h hl ht
      rcases holdr q _ h with ⟨_, e⟩ | ⟨_, h'⟩
      · cases e
      · rcases hold j t' ht with ⟨rfl, rfl⟩ | ⟨_, ht⟩
        · have := hv.own q l j t h' hl hi
          rw [hopen this]; exact this
        · exact hv.own q l j t' h' hl ht
    · intro q l j t' h hl ht
      rcases holdr q _ h with ⟨_, e⟩ | ⟨_, h'⟩
      · cases e
      · rcases hold j t' ht with ⟨rfl, rfl⟩ | ⟨_, ht⟩
        · rw [hkind]; exact hv.shared q l j t h' hl hi
        · exact hv.shared q l j t' h' hl ht
  | @release r hr =>
    have holdr : ∀ (q : Nat) x, (s.readers.set r MReader.done)[q]? = some x → (q = r ∧ x = .done) ∨ (q ≠ r ∧ s.readers[q]? = some x) := fun q x h => by
      rcases mset_get h with ⟨a, b, _⟩ | h
      · exact .inl ⟨a, b⟩
      · exact .inr h
    refine ⟨hv.len, by simpa using hv.num, hv.plain, hv.null, ?_, ?_, ?_, ?_, ?_⟩
    · intro q l h
      rcases holdr q _ h with ⟨_, e⟩ | ⟨_, h⟩
      · cases e
      · exact hv.few q l h
    · intro q l j t' h hl ht
      rcases holdr q _ h with ⟨_, e⟩ | ⟨_, h⟩
      · cases e
      · exact hv.own q l j t' h hl ht
    · intro q l j t' h hl ht
      rcases holdr q _ h with ⟨_, e⟩ | ⟨_, h⟩
      · cases e
      · exact hv.shared q l j t' h hl ht
    · intro q x h ha
      rcases holdr q _ h with ⟨_, rfl⟩ | ⟨_, h⟩
      · exact hv.sound r _ hr trivial
      · exact hv.sound q x h ha
    · intro i t' h hk hs
      exact ⟨r, .done, List.getElem?_set_self (List.getElem?_eq_some_iff.mp hr).1, trivial⟩

theorem minv_steps {ks : List MKind} {n m : Nat} {s : MSys} (h : MSys.Steps (.init ks n) m s) : MInv ks n s := by
  induction h with
  | refl => exact minv_init ks n
  | step _ hst ih => exact minv_step ih hst

/-- **C109**: nobody is told that a muxed consumer is ready before one of its transports is. -/
theorem C109_sound {ks : List MKind} {n m : Nat} {s : MSys} (h : MSys.Steps (.init ks n) m s) {r : Nat} {x : MReader} (hr : s.readers[r]? = some x) (hx : Answered x) :
    someReady s := (minv_steps h).sound r x hr hx

/-- In a final state a call that has not been answered has all channels, and no transport gives anything. -/
theorem mstuck_waiting {ks : List MKind} {n m : Nat} {s : MSys} (h : MSys.Steps (.init ks n) m s) (hs : MStuck s) {r : Nat} {x : MReader}
    (hr : s.readers[r]? = some x) : x = .done ∨ ∃ l, x = .waiting l ∧ ∀ (i : Nat) t, s.ts[i]? = some t → ∃ c, l[i]? = some c ∧ t.gives c = false := by
  have hv := minv_steps h
  cases x with
  | done => exact .inl rfl
  | sending => exact absurd (.release hr) (hs _)
  | waiting l =>
    refine .inr ⟨l, rfl, fun i t hi => ?_⟩
    have hlen : l.length = s.ts.length := by
      have hle := hv.few r l hr
      by_cases hlt : l.length < s.ts.length
      · exact absurd (.ask hr (List.getElem?_eq_getElem hlt)) (hs _)
      · omega
    have hlt := (List.getElem?_eq_some_iff.mp hi).1
    have hc : l[i]? = some l[i] := List.getElem?_eq_getElem (by omega)
    refine ⟨l[i], hc, ?_⟩
    cases hg : t.gives l[i] with
    | false => rfl
    | true => exact absurd (.choose hr hlen hi hc hg) (hs _)

/-- **C109**: when a websocket or a null transport is ready every call is answered: an execution that goes on while it can ends so. -/
theorem C109_all {ks : List MKind} {n m : Nat} {s : MSys} (h : MSys.Steps (.init ks n) m s) (hs : MStuck s) {i : Nat} {t : MTransport} (hi : s.ts[i]? = some t)
    (hk : t.kind ≠ .kafka) (ht : t.state ≠ .cold) : s.readers = List.replicate n .done := by
  have hv := minv_steps h
  rw [List.eq_replicate_iff]
  refine ⟨hv.num, fun x hx => ?_⟩
  obtain ⟨r, hr⟩ := List.getElem?_of_mem hx
  rcases mstuck_waiting h hs hr with e | ⟨l, rfl, hl⟩
  · exact e
  · exfalso
    obtain ⟨c, hc, hg⟩ := hl i t hi
    have hop : t.state = .open := (hv.plain i t hi hk).resolve_left ht
    cases c with
    | own => cases hg
    | shared =>
      have hnull := hv.shared r l i t hr hc hi
      obtain ⟨k, st⟩ := t
      cases k
      · exact hk rfl
      · have hop : st = .open := hop
        subst hop
        cases hg
      · exact hnull rfl

/-- The transport at `i` is ready for good, and reader `r` has not asked it yet or was given a channel that one can receive from. -/
def MLate (i r : Nat) (k : MKind) (s : MSys) : Prop :=
  s.ts[i]? = some ⟨k, .open⟩ ∧ ∃ x, s.readers[r]? = some x ∧
    ∀ l, x = .waiting l → l.length ≤ i ∨ ∃ c, l[i]? = some c ∧ MTransport.gives ⟨k, .open⟩ c = true

theorem mlate_step {i r : Nat} {k : MKind} {s u : MSys} (h : MLate i r k s) (hst : MSys.Step s u) : MLate i r k u := by
  obtain ⟨hi, x, hr, hx⟩ := h
  have keep : ∀ j y, j ≠ i → (s.ts.set j y)[i]? = some ⟨k, .open⟩ := fun j y hj => by rw [List.getElem?_set_ne hj]; exact hi
  have other : ∀ q y, (∀ l, y = MReader.waiting l → r = q → l.length ≤ i ∨ ∃ c, l[i]? = some c ∧ MTransport.gives ⟨k, .open⟩ c = true) → q < s.readers.length →
      ∃ x, (s.readers.set q y)[r]? = some x ∧ ∀ l, x = .waiting l → l.length ≤ i ∨ ∃ c, l[i]? = some c ∧ MTransport.gives ⟨k, .open⟩ c = true := by
    intro q y hy hq
    by_cases e : r = q
    · subst e
      exact ⟨y, by rw [List.getElem?_set_self hq], fun l hl => hy l hl rfl⟩
    · exact ⟨x, by rw [List.getElem?_set_ne (Ne.symm e)]; exact hr, hx⟩
  have lt : ∀ {q : Nat} {y : MReader}, s.readers[q]? = some y → q < s.readers.length := fun h => (List.getElem?_eq_some_iff.mp h).1
  cases hst with
  | warm h1 h2 =>
    refine ⟨keep _ _ ?_, x, hr, hx⟩
    rintro rfl
    rw [hi] at h1; cases h1
  | forget h1 =>
    refine ⟨keep _ _ ?_, x, hr, hx⟩
    rintro rfl
    rw [hi] at h1; cases h1
  | @ask q chans t h1 h2 =>
    refine ⟨hi, other q _ ?_ (lt h1)⟩
    intro l hl e
    subst e
    cases hl
    rw [hr] at h1
    cases h1
    rcases hx chans rfl with hle | ⟨c, hc, hg⟩
    · rcases Nat.lt_or_eq_of_le hle with hlt | heq
      · exact .inl (by simp; omega)
      · right
        rw [heq, hi] at h2
        cases h2
        refine ⟨_, by rw [← heq, List.getElem?_concat_length], ?_⟩
        cases k <;> rfl
    · right
      refine ⟨c, ?_, hg⟩
      rw [List.getElem?_append_left (List.getElem?_eq_some_iff.mp hc).1]; exact hc
  | @choose q chans j t c h1 h2 h3 h4 h5 =>
    refine ⟨?_, other q _ (fun l hl => by cases hl) (lt h1)⟩
    by_cases hj : j = i
    · subst hj
      rw [hi] at h3
      cases h3
      show (s.ts.set j _)[j]? = _
      rw [List.getElem?_set_self (List.getElem?_eq_some_iff.mp hi).1]
      cases c
      · cases k
        · cases h5
        · rfl
        · rfl
      · rfl
    · exact keep _ _ hj
  | @release q h1 => exact ⟨hi, other q _ (fun l hl => by cases hl) (lt h1)⟩

/-- **C109**, calls made when a transport is ready for good: they are all answered. -/
theorem C109_later {ks : List MKind} {n m m' : Nat} {s t : MSys} (h : MSys.Steps (.init ks n) m s) (h' : MSys.Steps s m' t) (hs : MStuck t) {i r : Nat} {k : MKind}
    (hi : s.ts[i]? = some ⟨k, .open⟩) (hr : s.readers[r]? = some (.waiting [])) : t.readers[r]? = some .done := by
  have hrun : ∃ m'', MSys.Steps (.init ks n) m'' t := by
    clear hs
    induction h' with
    | refl => exact ⟨m, h⟩
    | step _ hst ih => obtain ⟨a, ha⟩ := ih; exact ⟨a + 1, .step ha hst⟩
  have hl : MLate i r k t := by
    clear hs hrun
    induction h' with
    | refl => exact ⟨hi, _, hr, fun l hl => by cases hl; exact .inl (Nat.zero_le _)⟩
    | step _ hst ih => exact mlate_step ih hst
  obtain ⟨m'', hrun⟩ := hrun
  obtain ⟨hti, x, hx, hlate⟩ := hl
  rcases mstuck_waiting hrun hs hx with e | ⟨l, rfl, hw⟩
  · rw [hx, e]
  · exfalso
    obtain ⟨c, hc, hg⟩ := hw i _ hti
    rcases hlate l rfl with hle | ⟨c', hc', hg'⟩
    · have := (List.getElem?_eq_some_iff.mp hc).1
      omega
    · rw [hc] at hc'
      cases hc'
      rw [hg] at hg'
      cases hg'

/-- **C109** (partial: for one call of `Ready`; `C109_refuted` shows why): when any transport is ready the call is answered. -/
theorem C109_partial {ks : List MKind} {m : Nat} {s : MSys} (h : MSys.Steps (.init ks 1) m s) (hs : MStuck s) (hr : someReady s) : s.readers = [.done] := by
  have hv := minv_steps h
  obtain ⟨i, t, hi, ht⟩ := hr
  by_cases hk : t.kind = .kafka
  · have hlen := hv.num
    match hrs : s.readers, hlen with
    | [x], _ =>
      have hx : s.readers[0]? = some x := by rw [hrs]; rfl
      rcases mstuck_waiting h hs hx with e | ⟨l, rfl, hl⟩
      · rw [e]
      · exfalso
        obtain ⟨c, hc, hg⟩ := hl i t hi
        have hnone : ∀ (q : Nat) y, s.readers[q]? = some y → ¬ Answered y := by
          intro q y hq
          rw [hrs] at hq
          cases q with
          | zero => simp only [List.getElem?_cons_zero, Option.some.injEq] at hq; subst hq; exact fun h => h
          | succ q => simp at hq
        have hst : t.state = .offering := by
          cases hst : t.state with
          | cold => exact absurd hst ht
          | offering => rfl
          | sent => obtain ⟨q, y, hq, ha⟩ := hv.used i t hi hk (.inl hst); exact absurd ha (hnone q y hq)
          | «open» => obtain ⟨q, y, hq, ha⟩ := hv.used i t hi hk (.inr hst); exact absurd ha (hnone q y hq)
        cases c with
        | own => cases hg
        | shared => simp [MTransport.gives, hk, hst] at hg
  · exact C109_all h hs hi hk ht

/-- The steps that are left to a transport and to a call. -/
def MTransport.left (t : MTransport) : Nat := match t.state with
  | .cold => 3
  | .offering => 2
  | .sent => 1
  | .open => 0

def MReader.left (n : Nat) : MReader → Nat
  | .waiting l => n - l.length + 2
  | .sending => 1
  | .done => 0

/-- The steps that are left at most. -/
def MSys.left (s : MSys) : Nat := (s.ts.map MTransport.left).sum + (s.readers.map (MReader.left s.ts.length)).sum

theorem mleft_set {α : Type} (f : α → Nat) {l : List α} {i : Nat} {x y : α} (h : l[i]? = some x) : ((l.set i y).map f).sum + f x = (l.map f).sum + f y := by
  induction l generalizing i with
  | nil => simp at h
  | cons a l ih =>
    cases i with
    | zero => simp only [List.getElem?_cons_zero, Option.some.injEq] at h; subst h; simp [List.set]; omega
    | succ i =>
      have := ih (i := i) (by simpa using h)
      simp only [List.set_cons_succ, List.map_cons, List.sum_cons]; omega

theorem mstep_left {s u : MSys} (h : MSys.Step s u) : u.left < s.left := by
  cases h with
  | @warm i k hi hk =>
    have := mleft_set MTransport.left (y := ⟨k, if k = .kafka then .offering else .open⟩) hi
    have h1 : MTransport.left ⟨k, .cold⟩ = 3 := rfl
    have h2 : MTransport.left ⟨k, if k = .kafka then .offering else .open⟩ ≤ 2 := by cases k <;> simp [MTransport.left]
    simp only [MSys.left, List.length_set]; omega
  | @forget i k hi =>
    have := mleft_set MTransport.left (y := ⟨k, .open⟩) hi
    have h1 : MTransport.left ⟨k, .sent⟩ = 1 := rfl
    have h2 : MTransport.left ⟨k, .open⟩ = 0 := rfl
    simp only [MSys.left, List.length_set]; omega
  | @ask r chans t hr ht =>
    have hlt := (List.getElem?_eq_some_iff.mp ht).1
    have := mleft_set (MReader.left s.ts.length) (y := .waiting (chans ++ [t.ready])) hr
    simp only [MReader.left, List.length_append, List.length_singleton] at this
    simp only [MSys.left]; omega
  | @choose r chans i t c hr hlen hi hc hg =>
    have h1 := mleft_set MTransport.left (y := t.taken c) hi
    have h2 := mleft_set (MReader.left s.ts.length) (y := .sending) hr
    have h3 : (t.taken c).left ≤ t.left := by
      obtain ⟨k, st⟩ := t
      cases c <;> cases k <;> cases st <;> simp_all [MTransport.taken, MTransport.gives, MTransport.left]
    simp only [MReader.left] at h2
    simp only [MSys.left, List.length_set]; omega
  | @release r hr =>
    have := mleft_set (MReader.left s.ts.length) (y := .done) hr
    simp only [MReader.left] at this
    simp only [MSys.left]; omega

theorem mleft_bound {α : Type} (f : α → Nat) (b : Nat) (l : List α) (h : ∀ x ∈ l, f x ≤ b) : (l.map f).sum ≤ l.length * b := by
  induction l with
  | nil => simp
  | cons a l ih =>
    have := ih fun x hx => h x (List.mem_cons_of_mem _ hx)
    have := h a List.mem_cons_self
    simp only [List.map_cons, List.sum_cons, List.length_cons, Nat.add_mul, Nat.one_mul]; omega

/-- **C109**: executions are finite: at most three steps for each transport, and for each call one for each transport and two more. -/
theorem C109_ends {ks : List MKind} {n m : Nat} {s : MSys} (h : MSys.Steps (.init ks n) m s) : m ≤ ks.length * 3 + n * (ks.length + 2) := by
  have key : m + s.left ≤ (MSys.init ks n).left := by
    induction h with
    | refl => omega
    | step _ hst ih => have := mstep_left hst; omega
  have h1 := mleft_bound MTransport.left 3 (MSys.init ks n).ts (fun t _ => by unfold MTransport.left; split <;> omega)
  have h2 := mleft_bound (MReader.left (MSys.init ks n).ts.length) ((MSys.init ks n).ts.length + 2) (MSys.init ks n).readers
    (fun t _ => by cases t <;> simp only [MReader.left] <;> omega)
  have e1 : (MSys.init ks n).ts.length = ks.length := by simp [MSys.init]
  have e2 : (MSys.init ks n).readers.length = n := by simp [MSys.init]
  rw [e1] at h1 h2
  rw [e2] at h2
  simp only [MSys.left, e1] at key
  omega

/-- **C109 fails** for two calls and one Kafka transport: the one element that the transport sends answers one of them, the other waits for ever. -/
theorem C109_refuted : ∃ (m : Nat) (s : MSys), MSys.Steps (.init [.kafka] 2) m s ∧ MStuck s ∧ s.ts = [⟨.kafka, .open⟩] ∧ s.readers = [.done, .waiting [.shared]] := by
  have h0 : MSys.Steps (.init [.kafka] 2) 0 _ := .refl
  have h1 := h0.step (.ask (r := 0) rfl rfl)
  have h2 := h1.step (.ask (r := 1) rfl rfl)
  have h3 := h2.step (.warm (i := 0) rfl (by simp))
  have h4 := h3.step (.choose (r := 0) (i := 0) rfl rfl rfl rfl rfl)
  have h5 := h4.step (.release (r := 0) rfl)
  have h6 := h5.step (.forget (i := 0) rfl)
  refine ⟨_, ⟨[⟨.kafka, .open⟩], [.done, .waiting [.shared]]⟩, h6, ?_, rfl, rfl⟩
  intro u hu
  have one : ∀ (i : Nat) (t : MTransport), ([⟨.kafka, .open⟩] : List MTransport)[i]? = some t → i = 0 ∧ t = ⟨.kafka, .open⟩ := by
    intro i t h; cases i <;> simp_all
  cases hu with
  | warm hi => have := (one _ _ hi).2; simp at this
  | forget hi => have := (one _ _ hi).2; simp at this
  | @ask r l t hr ht =>
    have := (one _ _ ht).1
    match r, hr with
    | 1, hr => simp at hr; subst hr; simp at this
  | @choose r l i t c hr hlen hi hc hg =>
    obtain ⟨rfl, rfl⟩ := one _ _ hi
    match r, hr with
    | 1, hr =>
      simp at hr; subst hr
      simp at hc; subst hc
      simp [MTransport.gives] at hg
  | @release r hr =>
    match r, hr with
    | 0, hr => simp at hr
    | 1, hr => simp at hr

/-- **C109 fails** for a second Kafka transport: when the call has been answered by the first, nobody receives from the second, and its goroutine waits for ever at
`kc.ready <- struct{}{}`; it never gets to `dl.Close()`. -/
theorem C109_refuted_second : ∃ (m : Nat) (s : MSys), MSys.Steps (.init [.kafka, .kafka] 1) m s ∧ MStuck s ∧ s.readers = [.done] ∧
    s.ts = [⟨.kafka, .open⟩, ⟨.kafka, .offering⟩] := by
  have h0 : MSys.Steps (.init [.kafka, .kafka] 1) 0 _ := .refl
  have h1 := h0.step (.ask (r := 0) rfl rfl)
  have h2 := h1.step (.ask (r := 0) rfl rfl)
  have h3 := h2.step (.warm (i := 0) rfl (by simp))
  have h4 := h3.step (.choose (r := 0) (i := 0) rfl rfl rfl rfl rfl)
  have h5 := h4.step (.release (r := 0) rfl)
  have h6 := h5.step (.forget (i := 0) rfl)
  have h7 := h6.step (.warm (i := 1) rfl (by simp))
  refine ⟨_, ⟨[⟨.kafka, .open⟩, ⟨.kafka, .offering⟩], [.done]⟩, h7, ?_, rfl, rfl⟩
  intro u hu
  have one : ∀ (r : Nat) (x : MReader), ([.done] : List MReader)[r]? = some x → x = .done := by
    intro r x h; cases r <;> simp_all
  cases hu with
  | @warm i k hi =>
    match i, hi with
    | 0, hi => simp at hi
    | 1, hi => simp at hi
  | @forget i k hi =>
    match i, hi with
    | 0, hi => simp at hi
    | 1, hi => simp at hi
  | ask hr => cases one _ _ hr
  | choose hr => cases one _ _ hr
  | release hr => cases one _ _ hr

/-- **C109 fails** without transports: `reflect.Select` of nothing waits for ever. -/
theorem C109_refuted_none : MStuck (.init [] 1) := by
  intro u hu
  have one : ∀ (r : Nat) (x : MReader), ([.waiting []] : List MReader)[r]? = some x → x = .waiting [] := by
    intro r x h; cases r <;> simp_all
  cases hu with
  | warm hi => simp [MSys.init] at hi
  | forget hi => simp [MSys.init] at hi
  | ask hr ht => simp [MSys.init] at ht
  | choose hr hl hi => simp [MSys.init] at hi
  | release hr => cases one _ _ hr

/-- A case that meets the hypotheses of `C109_partial` and `C109_all`: a websocket transport. -/
example : ∃ (m : Nat) (s : MSys), MSys.Steps (.init [.socket] 1) m s ∧ MStuck s ∧ someReady s ∧ s.readers = [.done] := by
  have h0 : MSys.Steps (.init [.socket] 1) 0 _ := .refl
  have h1 := h0.step (.ask (r := 0) rfl rfl)
  have h2 := h1.step (.warm (i := 0) rfl (by simp))
  have h3 := h2.step (.choose (r := 0) (i := 0) rfl rfl rfl rfl rfl)
  have h4 := h3.step (.release (r := 0) rfl)
  refine ⟨_, ⟨[⟨.socket, .open⟩], [.done]⟩, h4, ?_, ⟨0, _, rfl, by simp⟩, rfl⟩
  intro u hu
  have one : ∀ (r : Nat) (x : MReader), ([.done] : List MReader)[r]? = some x → x = .done := by
    intro r x h; cases r <;> simp_all
  cases hu with
  | @warm i k hi =>
    match i, hi with
    | 0, hi => simp at hi
  | @forget i k hi =>
    match i, hi with
    | 0, hi => simp at hi
  | ask hr => cases one _ _ hr
  | choose hr => cases one _ _ hr
  | release hr => cases one _ _ hr

/-- A case that meets the hypotheses of `C109_later`: a Kafka transport has answered a first call, and a second call is made after that. -/
example : ∃ (m m' : Nat) (s t : MSys), MSys.Steps (.init [.kafka] 2) m s ∧ MSys.Steps s m' t ∧ MStuck t ∧ s.ts[0]? = some ⟨.kafka, .open⟩ ∧
    s.readers[1]? = some (.waiting []) := by
  have h0 : MSys.Steps (.init [.kafka] 2) 0 _ := .refl
  have h1 := h0.step (.ask (r := 0) rfl rfl)
  have h2 := h1.step (.warm (i := 0) rfl (by simp))
  have h3 := h2.step (.choose (r := 0) (i := 0) rfl rfl rfl rfl rfl)
  have h4 := h3.step (.release (r := 0) rfl)
  have h5 := h4.step (.forget (i := 0) rfl)
  have g0 : MSys.Steps ⟨[⟨.kafka, .open⟩], [.done, .waiting []]⟩ 0 _ := .refl
  have g1 := g0.step (.ask (r := 1) rfl rfl)
  have g2 := g1.step (.choose (r := 1) (i := 0) rfl rfl rfl rfl rfl)
  have g3 := g2.step (.release (r := 1) rfl)
  refine ⟨_, _, ⟨[⟨.kafka, .open⟩], [.done, .waiting []]⟩, ⟨[⟨.kafka, .open⟩], [.done, .done]⟩, h5, g3, ?_, rfl, rfl⟩
  intro u hu
  have one : ∀ (r : Nat) (x : MReader), ([.done, .done] : List MReader)[r]? = some x → x = .done := by
    intro r x h
    match r, h with
    | 0, h => simp at h; exact h.symm
    | 1, h => simp at h; exact h.symm
  cases hu with
  | @warm i k hi =>
    match i, hi with
    | 0, hi => simp at hi
  | @forget i k hi =>
    match i, hi with
    | 0, hi => simp at hi
  | ask hr => cases one _ _ hr
  | choose hr => cases one _ _ hr
  | release hr => cases one _ _ hr

end Verif
