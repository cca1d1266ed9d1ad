import Verif.Props.Kafka
/-!
# C138: what any string means as a resumption

The resumption given to a Kafka consumer comes from whoever stored it. These theorems say for every string whether it is accepted and what it
means; the grammar is written without the parser.
-/
namespace Verif
open Spec

/-- `s` is made of the parts `ts`, separated by `sep`. -/
inductive Spec.PartsOf (sep : UInt8) : GoStr → List GoStr → Prop
  | one {t : GoStr} : sep ∉ t → PartsOf sep t [t]
  | more {t s : GoStr} {ts : List GoStr} : sep ∉ t → PartsOf sep s ts → PartsOf sep (t ++ sep :: s) (t :: ts)

/-- `s` is the number `n` in decimal digits, most significant first, possibly with leading zeros. -/
inductive Spec.Decimal : GoStr → Nat → Prop
  | one {d : Nat} : d < 10 → Decimal [UInt8.ofNat (48 + d)] d
  | more {s : GoStr} {n d : Nat} : Decimal s n → d < 10 → Decimal (s ++ [UInt8.ofNat (48 + d)]) (10 * n + d)

/-- `s` is the 64-bit number `i`: digits with or without a sign. -/
def Spec.Numeral (s : GoStr) (i : Int) : Prop :=
  InInt64 i ∧ ∃ n, ((Decimal s n ∨ ∃ t, s = str "+" ++ t ∧ Decimal t n) ∧ i = n) ∨ (∃ t, s = str "-" ++ t ∧ Decimal t n) ∧ i = -n

/-- `token` is `k=v`, with no other '='. -/
def Spec.Assigns (token k v : GoStr) : Prop := token = k ++ str "=" ++ v ∧ (61 : UInt8) ∉ k ∧ (61 : UInt8) ∉ v

theorem splitOn_parts {sep : UInt8} {s : GoStr} {ts : List GoStr} (h : PartsOf sep s ts) : splitOn sep s = ts := by
  induction h with
  | one h => exact splitOn_none h
  | more h _ ih => rw [splitOn_append h, ih]

theorem parts_splitOn (sep : UInt8) (s : GoStr) : PartsOf sep s (splitOn sep s) := by
  induction s with
  | nil => exact .one (by simp)
  | cons c s ih =>
    unfold splitOn
    by_cases h : c = sep
    · rw [if_pos h, h]
      exact .more (t := []) (by simp) ih
    · rw [if_neg h]
      generalize splitOn sep s = l at ih
      cases ih with
      | one h' => exact .one (by simp [h', Ne.symm h])
      | more h' hs => exact .more (t := c :: _) (by simp [h', Ne.symm h]) hs

theorem resumeDigit_iff {c : UInt8} {d : Nat} : digit? c = some d ↔ d < 10 ∧ c = UInt8.ofNat (48 + d) := by
  refine ⟨?_, fun ⟨h, e⟩ => by rw [e]; exact digit_natDigit h⟩
  unfold digit?
  intro h
  split at h
  · next hc =>
    have h1 := UInt8.le_iff_toNat_le.mp hc.1
    have h2 := UInt8.le_iff_toNat_le.mp hc.2
    simp only [UInt8.toNat_ofNat, Option.some.injEq] at h1 h2 h
    refine ⟨by omega, UInt8.toNat_inj.mp ?_⟩
    rw [UInt8.toNat_ofNat']
    omega
  · simp at h

theorem decimal_snoc {s : GoStr} {n : Nat} (h : Decimal s n) : s ≠ [] ∧ digitsNat 0 s = some n := by
  induction h with
  | one h => exact ⟨by simp, by unfold digitsNat; rw [resumeDigit_iff.mpr ⟨h, rfl⟩]; simp [digitsNat]⟩
  | more _ h ih => exact ⟨by simp, by rw [digitsNat_snoc ih.2 (resumeDigit_iff.mpr ⟨h, rfl⟩), Nat.mul_comm]⟩

theorem digitsNat_append {s t : GoStr} {acc : Nat} : digitsNat acc (s ++ t) = (digitsNat acc s).bind (fun n => digitsNat n t) := by
  induction s generalizing acc with
  | nil => rfl
  | cons c s ih =>
    simp only [List.cons_append, digitsNat]
    split
    · rfl
    · exact ih

theorem decimal_iff {s : GoStr} {n : Nat} : Decimal s n ↔ s ≠ [] ∧ digitsNat 0 s = some n := by
  refine ⟨decimal_snoc, ?_⟩
  rintro ⟨hne, h⟩
  have key : ∀ (k : Nat) (s : GoStr) (n : Nat), s.length = k + 1 → digitsNat 0 s = some n → Decimal s n := by
    intro k
    induction k with
    | zero =>
      intro s n hl h
      match s, hl with
      | [c], _ =>
        simp only [digitsNat] at h
        split at h
        · simp at h
        · next d hd =>
          obtain ⟨h1, rfl⟩ := resumeDigit_iff.mp hd
          simp at h
          subst h
          exact .one h1
    | succ k ih =>
      intro s n hl h
      have hne : s ≠ [] := by intro e; rw [e] at hl; simp at hl
      obtain ⟨t, c, rfl⟩ : ∃ t c, s = t ++ [c] := ⟨_, _, (List.dropLast_concat_getLast hne).symm⟩
      rw [digitsNat_append] at h
      match ht : digitsNat 0 t with
      | none => rw [ht] at h; simp at h
      | some m =>
        rw [ht] at h
        simp only [Option.bind_some, digitsNat] at h
        split at h
        · simp at h
        · next d hd =>
          obtain ⟨h1, rfl⟩ := resumeDigit_iff.mp hd
          simp only [Option.some.injEq] at h
          rw [← h, Nat.mul_comm]
          exact .more (ih t m (by simpa using hl) ht) h1
  cases hs : s with
  | nil => exact absurd hs hne
  | cons c t => rw [← hs]; exact key t.length s n (by simp [hs]) h

/-- A decimal number does not begin with a sign. -/
theorem decimal_unsigned {c : UInt8} {t : GoStr} {n : Nat} (h : Decimal (c :: t) n) : c ≠ 45 ∧ c ≠ 43 := by
  have := (decimal_iff.mp h).2
  simp only [digitsNat] at this
  constructor
  · rintro rfl; simp [digit?] at this
  · rintro rfl; simp [digit?] at this

theorem signOf_other {c : UInt8} {t : GoStr} (h1 : c ≠ 45) (h2 : c ≠ 43) : signOf (c :: t) = (false, c :: t) := by simp [signOf, h1, h2]

/-- **C138**, numbers: `strconv.Atoi` as modelled accepts the numerals, and gives their values. -/
theorem C138_numbers {s : GoStr} {i : Int} : atoi s = some i ↔ Numeral s i := by
  have hmax : ∀ j : Int, (minInt64 ≤ j ∧ j ≤ maxInt64) ↔ InInt64 j := by intro j; unfold InInt64 minInt64 maxInt64; omega
  have hp : str "+" = [43] := by decide +kernel
  have hm : str "-" = [45] := by decide +kernel
  have e : atoi s = some i ↔ InInt64 i ∧ ∃ n, Decimal (signOf s).2 n ∧ i = if (signOf s).1 then -(n : Int) else n := by
    unfold atoi
    by_cases h0 : (signOf s).2 = []
    · rw [if_pos h0]
      constructor
      · intro h; simp at h
      · rintro ⟨_, n, hd, _⟩; exact absurd h0 (decimal_iff.mp hd).1
    · rw [if_neg h0]
      constructor
      · intro h
        match hd : digitsNat 0 (signOf s).2 with
        | none => rw [hd] at h; simp at h
        | some n =>
          rw [hd] at h
          simp only [hmax] at h
          generalize hj : (if (signOf s).1 = true then -(n : Int) else n) = j at h
          by_cases hi : InInt64 j
          · rw [if_pos hi] at h
            have h := Option.some.inj h
            rw [h] at hi hj
            exact ⟨hi, n, decimal_iff.mpr ⟨h0, hd⟩, hj.symm⟩
          · rw [if_neg hi] at h; simp at h
      · rintro ⟨hi, n, hd, rfl⟩
        rw [(decimal_iff.mp hd).2]
        simp only [hmax]
        rw [if_pos hi]
  rw [e]
  unfold Spec.Numeral
  rw [hp, hm]
  refine and_congr_right fun _ => exists_congr fun n => ?_
  cases s with
  | nil =>
    have hd : ¬ Decimal [] n := fun h => (decimal_iff.mp h).1 rfl
    simp [signOf, hd]
  | cons c t =>
    by_cases h1 : c = 45
    · subst h1
      have hd : ¬ Decimal (45 :: t) n := fun h => (decimal_unsigned h).1 rfl
      simp [signOf, hd]
    · by_cases h2 : c = 43
      · subst h2
        have hd : ¬ Decimal (43 :: t) n := fun h => (decimal_unsigned h).2 rfl
        simp [signOf, hd]
      · rw [signOf_other h1 h2]
        simp [h1, h2]

theorem assigns_iff {token k v : GoStr} : Assigns token k v ↔ splitOn 61 token = [k, v] := by
  have he : str "=" = [61] := by decide +kernel
  unfold Assigns
  rw [he]
  constructor
  · rintro ⟨rfl, h1, h2⟩
    rw [List.append_assoc, List.singleton_append, splitOn_append h1, splitOn_none h2]
  · intro h
    have := parts_splitOn 61 token
    rw [h] at this
    cases this with
    | more h1 hs =>
      cases hs with
      | one h2 => exact ⟨by simp, h1, h2⟩
      | more _ hs => cases hs

/-- What the parser does with one token. -/
theorem parseToken_cases (m : GMap GoStr Int) (token : GoStr) :
    ((∀ k v, ¬ Assigns token k v) ∧ parseToken m token = .ok m) ∨
    ∃ k v, Assigns token k v ∧ ((∃ i, Numeral v i ∧ parseToken m token = .ok (m.insert k i)) ∨ (∀ i, ¬ Numeral v i) ∧ parseToken m token = .error .decode) := by
  simp only [assigns_iff]
  unfold parseToken
  split
  · next k v h =>
    refine .inr ⟨k, v, h, ?_⟩
    match ha : atoi v with
    | none => exact .inr ⟨fun i hi => by rw [C138_numbers.mpr hi] at ha; simp at ha, by simp⟩
    | some i => exact .inl ⟨i, C138_numbers.mp ha, by simp⟩
  · next h => exact .inl ⟨fun k v hc => h k v hc, rfl⟩

theorem assigns_unique {token k v k' v' : GoStr} (h : Assigns token k v) (h' : Assigns token k' v') : k = k' ∧ v = v' := by
  rw [assigns_iff] at h h'
  rw [h] at h'
  simpa using h'

theorem numeral_unique {s : GoStr} {i j : Int} (h : Numeral s i) (h' : Numeral s j) : i = j := by
  have h1 := C138_numbers.mpr h
  rw [C138_numbers.mpr h'] at h1
  exact (Option.some.inj h1).symm

/-- The last of the tokens that assign something to `k` assigns `i`. -/
def Spec.LastAssigned (ts : List GoStr) (k : GoStr) (i : Int) : Prop :=
  ∃ before token after v, ts = before ++ token :: after ∧ Assigns token k v ∧ Numeral v i ∧ ∀ t ∈ after, ∀ w, ¬ Assigns t k w

theorem parse_fold {ts : List GoStr} : ∀ {m0 : GMap GoStr Int},
    ((∃ m, ts.foldlM parseToken m0 = .ok m) ↔ ∀ t ∈ ts, ∀ k v, Assigns t k v → ∃ i, Numeral v i) ∧
    ∀ m, ts.foldlM parseToken m0 = .ok m → ∀ k i, m.get? k = some i ↔ LastAssigned ts k i ∨ (∀ t ∈ ts, ∀ w, ¬ Assigns t k w) ∧ m0.get? k = some i := by
  induction ts with
  | nil =>
    intro m0
    refine ⟨⟨fun _ t ht => by simp at ht, fun _ => ⟨m0, rfl⟩⟩, ?_⟩
    intro m hm k i
    cases hm
    constructor
    · intro h; exact .inr ⟨by simp, h⟩
    · rintro (⟨b, t, a, v, e, _⟩ | ⟨_, h⟩)
      · simp at e
      · exact h
  | cons t ts ih =>
    intro m0
    rw [List.foldlM_cons]
    rcases parseToken_cases m0 t with ⟨hno, e⟩ | ⟨k0, v0, has, ⟨i0, hi0, e⟩ | ⟨hno, e⟩⟩
    · rw [e]
      obtain ⟨h1, h2⟩ := ih (m0 := m0)
      refine ⟨h1.trans ⟨fun h x hx => ?_, fun h x hx => h x (by simp [hx])⟩, fun m hm k i => (h2 m hm k i).trans ?_⟩
      · rcases List.mem_cons.mp hx with rfl | hx
        · intro k v hkv; exact absurd hkv (hno k v)
        · exact h x hx
      · constructor
        · rintro (⟨b, x, a, v, rfl, h⟩ | ⟨h, h'⟩)
          · exact .inl ⟨t :: b, x, a, v, by simp, h⟩
          · refine .inr ⟨fun x hx w => ?_, h'⟩
            rcases List.mem_cons.mp hx with rfl | hx
            · exact hno k w
            · exact h x hx w
        · rintro (⟨b, x, a, v, e, h⟩ | ⟨h, h'⟩)
          · cases b with
            | nil => simp at e; rw [← e.1] at h; exact absurd h.1 (hno k v)
            | cons y b => simp at e; exact .inl ⟨b, x, a, v, e.2, h⟩
          · exact .inr ⟨fun x hx => h x (by simp [hx]), h'⟩
    · rw [e]
      obtain ⟨h1, h2⟩ := ih (m0 := m0.insert k0 i0)
      refine ⟨h1.trans ⟨fun h x hx => ?_, fun h x hx => h x (by simp [hx])⟩, fun m hm k i => (h2 m hm k i).trans ?_⟩
      · rcases List.mem_cons.mp hx with rfl | hx
        · intro k v hkv; obtain ⟨rfl, rfl⟩ := assigns_unique has hkv; exact ⟨i0, hi0⟩
        · exact h x hx
      · constructor
        · rintro (⟨b, x, a, v, rfl, h⟩ | ⟨h, h'⟩)
          · exact .inl ⟨t :: b, x, a, v, by simp, h⟩
          · by_cases hk : k = k0
            · subst hk
              rw [GMap.get?_insert_self] at h'
              cases h'
              exact .inl ⟨[], t, ts, v0, rfl, has, hi0, h⟩
            · rw [GMap.get?_insert_ne _ _ (Ne.symm hk)] at h'
              refine .inr ⟨fun x hx w => ?_, h'⟩
              rcases List.mem_cons.mp hx with rfl | hx
              · intro hc; exact hk (assigns_unique hc has).1
              · exact h x hx w
        · rintro (⟨b, x, a, v, e, h⟩ | ⟨h, h'⟩)
          · cases b with
            | nil =>
              simp at e
              obtain ⟨rfl, rfl⟩ := e
              obtain ⟨rfl, rfl⟩ := assigns_unique has h.1
              refine .inr ⟨h.2.2, ?_⟩
              rw [GMap.get?_insert_self, numeral_unique hi0 h.2.1]
            | cons y b => simp at e; exact .inl ⟨b, x, a, v, e.2, h⟩
          · refine .inr ⟨fun x hx => h x (by simp [hx]), ?_⟩
            have hk : k ≠ k0 := by rintro rfl; exact h t (by simp) v0 has
            rw [GMap.get?_insert_ne _ _ (Ne.symm hk)]; exact h'
    · rw [e]
      refine ⟨⟨fun ⟨m, h⟩ => (by cases h), fun h => ?_⟩, fun m hm => (by cases hm)⟩
      obtain ⟨i, hi⟩ := h t (by simp) k0 v0 has
      exact absurd hi (hno i)

/-- **C138**: a string is accepted as a resumption exactly if in each of its parts of the form `k=v` the `v` is a numeral; parts of another form
are ignored. -/
theorem C138_accepted {s : GoStr} {ts : List GoStr} (h : PartsOf 59 s ts) :
    (∃ m, parseResumption s = .ok m) ↔ ∀ t ∈ ts, ∀ k v, Assigns t k v → ∃ i, Numeral v i := by
  unfold parseResumption
  rw [splitOn_parts h]
  exact parse_fold.1

/-- **C138**: what an accepted string says about a source is what its last part about it says. -/
theorem C138_meaning {s : GoStr} {ts : List GoStr} (h : PartsOf 59 s ts) {m : GMap GoStr Int} (hm : parseResumption s = .ok m) (k : GoStr) (i : Int) :
    m.get? k = some i ↔ LastAssigned ts k i := by
  unfold parseResumption at hm
  rw [splitOn_parts h] at hm
  rw [parse_fold.2 m hm k i]
  simp

/-- Every string has parts, so the two theorems speak about every string. -/
theorem C138_total (s : GoStr) : ∃ ts, PartsOf 59 s ts ∧ ∀ ts', PartsOf 59 s ts' → ts' = ts :=
  ⟨_, parts_splitOn 59 s, fun _ h => (splitOn_parts h).symm⟩

/-- **C138**, the other side of leniency: a string in which nothing has the form `k=v` is accepted and means nothing, so the consumer starts as
if it had been given no resumption. -/
theorem C138_nothing {s : GoStr} {ts : List GoStr} (h : PartsOf 59 s ts) (hno : ∀ t ∈ ts, ∀ k v, ¬ Assigns t k v) :
    ∃ m, parseResumption s = .ok m ∧ ∀ k, m.get? k = none := by
  obtain ⟨m, hm⟩ := (C138_accepted h).mpr (fun t ht k v hk => absurd hk (hno t ht k v))
  refine ⟨m, hm, fun k => ?_⟩
  cases hk : m.get? k with
  | none => rfl
  | some i =>
    obtain ⟨b, t, a, v, e, hv, _⟩ := (C138_meaning h hm k i).mp hk
    exact absurd hv (hno t (by rw [e]; simp) k v)

/-- A string with a signed number, a source named twice, and parts that say nothing. -/
example : ∃ m, parseResumption (str "t:0=+5;junk;a=b=1;t:0=-7;;u:1=007") = .ok m ∧ m.get? (str "t:0") = some (-7) ∧ m.get? (str "u:1") = some 7 ∧
    m.get? (str "a") = none ∧ m.size = 2 := by
  have : (match parseResumption (str "t:0=+5;junk;a=b=1;t:0=-7;;u:1=007") with
    | .ok m => decide (m.get? (str "t:0") = some (-7) ∧ m.get? (str "u:1") = some 7 ∧ m.get? (str "a") = none ∧ m.size = 2)
    | .error _ => false) = true := by decide +kernel
  split at this
  · next m hm => exact ⟨m, hm, by simpa using this⟩
  · simp at this

example : Numeral (str "+12") 12 := C138_numbers.mp (by decide +kernel)
example : PartsOf 59 (str "t:0=5;junk") [str "t:0=5", str "junk"] :=
  show PartsOf 59 (str "t:0=5" ++ 59 :: str "junk") _ from .more (by decide +kernel) (.one (by decide +kernel))

end Verif
