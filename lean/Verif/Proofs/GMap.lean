import Verif.Model.Go
/-! Lemmas about the map and LRU models. -/
namespace Verif
namespace GMap
variable {K V : Type} [DecidableEq K]

theorem look_put (k k' : K) (v : V) (l : List (K × V)) :
    look k' (put k v l) = if k = k' then some v else look k' l := by
  induction l with
  | nil => simp [put, look]
  | cons a l ih =>
    obtain ⟨a, b⟩ := a
    by_cases h : a = k
    · subst h; by_cases h2 : a = k' <;> simp [put, look, h2]
    · by_cases h2 : a = k'
      · subst h2; simp [put, look, h, Ne.symm (a := a) (b := k) h]
      · simp [put, look, h, h2, ih]

@[simp] theorem get?_empty (k : K) : (empty : GMap K V).get? k = none := rfl

theorem get?_insert (m : GMap K V) (k k' : K) (v : V) :
    (m.insert k v).get? k' = if k = k' then some v else m.get? k' := look_put k k' v m.entries

@[simp] theorem get?_insert_self (m : GMap K V) (k : K) (v : V) : (m.insert k v).get? k = some v := by
  simp [get?_insert]

theorem get?_insert_ne (m : GMap K V) {k k' : K} (v : V) (h : k ≠ k') :
    (m.insert k v).get? k' = m.get? k' := by simp [get?_insert, h]

theorem look_eq_some_iff {k : K} {v : V} {l : List (K × V)} (h : (l.map Prod.fst).Nodup) :
    look k l = some v ↔ (k, v) ∈ l := by
  induction l with
  | nil => simp [look]
  | cons a l ih =>
    obtain ⟨a, b⟩ := a
    simp only [List.map_cons, List.nodup_cons] at h
    by_cases h2 : a = k
    · subst h2
      simp only [look, if_true, Option.some.injEq, List.mem_cons, Prod.mk.injEq, true_and]
      constructor
      · intro e; left; exact e.symm
      · rintro (e | e)
        · exact e.symm
        · exact absurd (List.mem_map_of_mem (f := Prod.fst) e) h.1
    · simp only [look, h2, if_false, ih h.2, List.mem_cons, Prod.mk.injEq]
      constructor
      · intro e; right; exact e
      · rintro (⟨e, _⟩ | e)
        · exact absurd e.symm h2
        · exact e

theorem get?_eq_some_iff (m : GMap K V) {k : K} {v : V} : m.get? k = some v ↔ (k, v) ∈ m.entries :=
  look_eq_some_iff m.nodup

theorem look_eq_none_iff {k : K} {l : List (K × V)} : look k l = none ↔ k ∉ l.map Prod.fst := by
  induction l with
  | nil => simp [look]
  | cons a l ih =>
    obtain ⟨a, b⟩ := a
    by_cases h2 : a = k
    · simp [look, h2]
    · simp only [look, h2, if_false, ih, List.map_cons, List.mem_cons, not_or]
      exact ⟨fun h => ⟨fun e => h2 e.symm, h⟩, fun h => h.2⟩

theorem get?_eq_none_iff (m : GMap K V) {k : K} : m.get? k = none ↔ k ∉ m.keys := look_eq_none_iff

theorem contains_iff (m : GMap K V) {k : K} : m.contains k = true ↔ ∃ v, m.get? k = some v := by
  simp [contains, Option.isSome_iff_exists]

theorem contains_eq_false (m : GMap K V) {k : K} : m.contains k = false ↔ m.get? k = none := by
  simp [contains]

theorem contains_iff_mem_keys (m : GMap K V) {k : K} : m.contains k = true ↔ k ∈ m.keys := by
  rw [← Bool.not_eq_false, contains_eq_false, get?_eq_none_iff]; simp

theorem contains_insert (m : GMap K V) (k k' : K) (v : V) :
    (m.insert k v).contains k' = (decide (k = k') || m.contains k') := by
  by_cases h : k = k' <;> simp [contains, get?_insert, h]

theorem look_filter_ne {k k' : K} {l : List (K × V)} :
    look k' (l.filter (fun e => e.1 ≠ k)) = if k = k' then none else look k' l := by
  induction l with
  | nil => simp [look]
  | cons a l ih =>
    obtain ⟨a, b⟩ := a
    by_cases h : a = k
    · subst h
      simp only [List.filter_cons, ne_eq, not_true, decide_false, look]
      by_cases h2 : a = k' <;> simp_all
    · by_cases h2 : a = k'
      · subst h2
        simp [look, h, Ne.symm (a := a) (b := k) h]
      · simp only [List.filter_cons, ne_eq, h, not_false_eq_true, decide_true, if_true, look, h2, if_false]
        simpa using ih

theorem get?_erase (m : GMap K V) (k k' : K) :
    (m.erase k).get? k' = if k = k' then none else m.get? k' := look_filter_ne

@[simp] theorem get?_erase_self (m : GMap K V) (k : K) : (m.erase k).get? k = none := by simp [get?_erase]

theorem get?_erase_ne (m : GMap K V) {k k' : K} (h : k ≠ k') : (m.erase k).get? k' = m.get? k' := by
  simp [get?_erase, h]

theorem contains_erase (m : GMap K V) (k k' : K) :
    (m.erase k).contains k' = (decide (k ≠ k') && m.contains k') := by
  by_cases h : k = k' <;> simp [contains, get?_erase, h]

theorem get?_filter (m : GMap K V) (p : K → V → Bool) (k : K) :
    (m.filter p).get? k = (m.get? k).filter (p k) := by
  cases h : m.get? k with
  | none =>
    rw [get?_eq_none_iff] at h
    simp only [Option.filter_none]
    rw [get?_eq_none_iff]
    intro hm
    apply h
    simp only [keys, filter, List.mem_map, List.mem_filter] at hm
    obtain ⟨a, ⟨ha, _⟩, hk⟩ := hm
    exact List.mem_map.mpr ⟨a, ha, hk⟩
  | some v =>
    by_cases hp : p k v = true
    · simp only [Option.filter_some, hp, if_true]
      rw [get?_eq_some_iff] at h ⊢
      exact List.mem_filter.mpr ⟨h, hp⟩
    · simp only [Option.filter_some, hp]
      simp only [Bool.false_eq_true, if_false]
      rw [get?_eq_none_iff]
      intro hm
      simp only [keys, filter, List.mem_map, List.mem_filter] at hm
      obtain ⟨⟨a, b⟩, ⟨ha, hb⟩, hk⟩ := hm
      simp only at hk; subst hk
      rw [← get?_eq_some_iff, h] at ha
      cases ha
      exact hp hb

@[simp] theorem get?_reorder (m : GMap K V) (o : MapOrder) (n : Nat) (k : K) :
    (m.reorder o n).get? k = m.get? k := by
  cases h : m.get? k with
  | none =>
    rw [get?_eq_none_iff] at h ⊢
    intro hm; apply h
    exact ((o.perm n m.entries).map Prod.fst).mem_iff.mp hm
  | some v =>
    rw [get?_eq_some_iff] at h ⊢
    exact (o.perm n m.entries).mem_iff.mpr h

theorem mem_keys_iff (m : GMap K V) {k : K} : k ∈ m.keys ↔ ∃ v, m.get? k = some v := by
  rw [← contains_iff_mem_keys, contains_iff]

theorem ext_entries {m m' : GMap K V} (h : m.entries = m'.entries) : m = m' := by
  cases m; cases m'; simp at h; subst h; rfl

theorem put_of_not_mem {k : K} {v : V} {l : List (K × V)} (h : k ∉ l.map Prod.fst) :
    put k v l = l ++ [(k, v)] := by
  induction l with
  | nil => rfl
  | cons a l ih =>
    obtain ⟨a, b⟩ := a
    simp only [List.map_cons, List.mem_cons, not_or] at h
    have : a ≠ k := fun e => h.1 e.symm
    simp [put, this, ih h.2]

theorem size_insert_of_none (m : GMap K V) {k : K} {v : V} (h : m.get? k = none) :
    (m.insert k v).size = m.size + 1 := by
  rw [get?_eq_none_iff] at h
  simp [insert, size, put_of_not_mem h]

theorem put_length_of_mem {k : K} {v : V} {l : List (K × V)} (h : k ∈ l.map Prod.fst) :
    (put k v l).length = l.length := by
  induction l with
  | nil => simp at h
  | cons a l ih =>
    obtain ⟨a, b⟩ := a
    by_cases e : a = k
    · simp [put, e]
    · simp only [List.map_cons, List.mem_cons] at h
      rcases h with h | h
      · exact absurd h.symm e
      · simp [put, e, ih h]

theorem size_insert_of_some (m : GMap K V) {k : K} {v w : V} (h : m.get? k = some w) :
    (m.insert k v).size = m.size := by
  have : k ∈ m.keys := (mem_keys_iff m).mpr ⟨w, h⟩
  simp [insert, size, put_length_of_mem this]

theorem size_insert_le (m : GMap K V) (k : K) (v : V) : (m.insert k v).size ≤ m.size + 1 := by
  cases h : m.get? k with
  | none => rw [size_insert_of_none m h]; omega
  | some w => rw [size_insert_of_some m h]; omega

theorem filter_fst_length {k : K} {l : List (K × V)} (hn : (l.map Prod.fst).Nodup) (h : k ∈ l.map Prod.fst) :
    (l.filter (fun e => e.1 ≠ k)).length + 1 = l.length := by
  induction l with
  | nil => simp at h
  | cons a l ih =>
    obtain ⟨a, b⟩ := a
    simp only [List.map_cons, List.nodup_cons, List.mem_cons] at hn h
    by_cases e : a = k
    · subst e
      have : l.filter (fun e => e.1 ≠ a) = l := by
        rw [List.filter_eq_self]
        intro x hx
        simp only [ne_eq, decide_not, Bool.not_eq_eq_eq_not, Bool.not_true, decide_eq_false_iff_not]
        intro e; exact hn.1 (e ▸ List.mem_map_of_mem (f := Prod.fst) hx)
      simp only [List.filter_cons, ne_eq, not_true, decide_false, Bool.false_eq_true, if_false,
        List.length_cons]
      rw [show (fun e : K × V => decide ¬e.1 = a) = (fun e => decide (e.1 ≠ a)) from rfl, this]
    · rcases h with h | h
      · exact absurd h.symm e
      · have := ih hn.2 h
        simp only [List.filter_cons, ne_eq, e, not_false_eq_true, decide_true, if_true, List.length_cons] at this ⊢
        omega

theorem size_erase_of_some (m : GMap K V) {k : K} {v : V} (h : m.get? k = some v) :
    (m.erase k).size + 1 = m.size :=
  filter_fst_length m.nodup ((mem_keys_iff m).mpr ⟨v, h⟩)

theorem erase_of_none (m : GMap K V) {k : K} (h : m.get? k = none) : m.erase k = m := by
  apply ext_entries
  rw [get?_eq_none_iff] at h
  simp only [erase]
  rw [List.filter_eq_self]
  intro x hx
  simp only [ne_eq, decide_not, Bool.not_eq_eq_eq_not, Bool.not_true, decide_eq_false_iff_not]
  intro e; exact h (e ▸ List.mem_map_of_mem (f := Prod.fst) hx)

theorem size_erase_le (m : GMap K V) (k : K) : (m.erase k).size ≤ m.size :=
  List.length_filter_le _ _

theorem foldl_insert_entries (l : List (K × V)) (m : GMap K V)
    (h : ((m.entries ++ l).map Prod.fst).Nodup) :
    (l.foldl (fun m e => m.insert e.1 e.2) m).entries = m.entries ++ l := by
  induction l generalizing m with
  | nil => simp
  | cons a l ih =>
    obtain ⟨k, v⟩ := a
    simp only [List.foldl_cons]
    have hk : k ∉ m.entries.map Prod.fst := by
      simp only [List.map_append, List.map_cons, List.nodup_append, List.nodup_cons] at h
      intro hm
      exact (h.2.2 _ hm k (by simp)) rfl
    have he : (m.insert k v).entries = m.entries ++ [(k, v)] := put_of_not_mem hk
    rw [ih (m.insert k v) (by rw [he]; simpa using h), he]
    simp

theorem ofList_entries {l : List (K × V)} (h : (l.map Prod.fst).Nodup) : (ofList l).entries = l := by
  have := foldl_insert_entries l (empty : GMap K V) (by simpa [empty] using h)
  simpa [ofList, empty] using this

theorem ofList_self (m : GMap K V) : ofList m.entries = m := ext_entries (ofList_entries m.nodup)

/-- Lookup after inserting a list with unique keys. -/
theorem get?_foldl_insert (l : List (K × V)) (m : GMap K V) (hn : (l.map Prod.fst).Nodup) (k : K) :
    (l.foldl (fun m e => m.insert e.1 e.2) m).get? k = (look k l).or (m.get? k) := by
  induction l generalizing m with
  | nil => simp [look]
  | cons a l ih =>
    obtain ⟨a, b⟩ := a
    simp only [List.map_cons, List.nodup_cons] at hn
    simp only [List.foldl_cons, ih _ hn.2, get?_insert, look]
    by_cases h : a = k
    · subst h
      have : look a l = none := look_eq_none_iff.mpr hn.1
      simp [this]
    · simp [h]

theorem get?_foldl_insert_unit {ι : Type} (l : List ι) (f : ι → K) (m : GMap K Unit) (k : K) :
    ((l.foldl (fun m e => m.insert (f e) ()) m).contains k = true) ↔ (k ∈ l.map f ∨ m.contains k = true) := by
  induction l generalizing m with
  | nil => simp
  | cons a l ih =>
    simp only [List.foldl_cons, ih, contains_insert, List.map_cons, List.mem_cons, Bool.or_eq_true,
      decide_eq_true_eq]
    constructor
    · rintro (h | h | h)
      · exact .inl (.inr h)
      · exact .inl (.inl h.symm)
      · exact .inr h
    · rintro ((h | h) | h)
      · exact .inr (.inl h.symm)
      · exact .inl h
      · exact .inr (.inr h)

end GMap

namespace LRU
variable {K : Type} [DecidableEq K]

@[simp] theorem contains_iff (c : LRU K) (k : K) : c.contains k = true ↔ k ∈ c.items := by simp [contains]

theorem add_cap (c : LRU K) (k : K) : (c.add k).1.cap = c.cap := by
  unfold add; split
  · rfl
  · split <;> rfl

theorem mem_add_self (c : LRU K) (k : K) (h : 0 < c.cap) : k ∈ (c.add k).1.items := by
  unfold add; split
  · simp
  · split
    · simp
    · rename_i h1 h2
      cases hc : c.items with
      | nil => simp [hc] at h2; omega
      | cons a l => simp [List.dropLast]

theorem mem_of_mem_add {c : LRU K} {k x : K} (h : x ∈ (c.add k).1.items) : x = k ∨ x ∈ c.items := by
  unfold add at h; split at h
  · simp at h; grind
  · split at h
    · simpa using h
    · have := List.dropLast_subset _ h
      simpa using this

theorem length_add_le (c : LRU K) (k : K) (h : c.items.length ≤ c.cap) :
    (c.add k).1.items.length ≤ c.cap := by
  unfold add; split
  · rename_i hk
    simp only [List.length_cons]
    have : (c.items.filter (fun x => x ≠ k)).length < c.items.length :=
      List.length_filter_lt_length_iff_exists.mpr ⟨k, hk, by simp⟩
    omega
  · split
    · simp; omega
    · simp; omega

theorem add_fst_of_snd_none {c : LRU K} {k : K} (h : (c.add k).2 = none) {x : K} :
    x ∈ (c.add k).1.items ↔ x = k ∨ x ∈ c.items := by
  unfold add at h ⊢; split
  · rename_i hk; simp; grind
  · rename_i hk
    split
    · simp
    · rename_i hl
      simp [hk, hl] at h

theorem add_none_of_room {c : LRU K} {k : K} (h : c.items.length < c.cap) : (c.add k).2 = none := by
  unfold add; split
  · rfl
  · rfl

/-- `k` is among the `n + 1` most recent entries. -/
def Within (c : LRU K) (k : K) (n : Nat) : Prop := ∃ l r, c.items = l ++ k :: r ∧ l.length ≤ n

omit [DecidableEq K] in
theorem Within.mem {c : LRU K} {k : K} {n : Nat} (h : c.Within k n) : k ∈ c.items := by
  obtain ⟨l, r, h, _⟩ := h; simp [h]

theorem within_add_self (c : LRU K) (k : K) (h : 0 < c.cap) (n : Nat) : (c.add k).1.Within k n := by
  unfold add; split
  · exact ⟨[], _, rfl, by simp⟩
  · split
    · exact ⟨[], _, rfl, by simp⟩
    · rename_i h1 h2
      cases hc : c.items with
      | nil => simp [hc] at h2; omega
      | cons a l => exact ⟨[], (a :: l).dropLast, by simp [List.dropLast], by simp⟩

theorem Within.add {c : LRU K} {k : K} {n : Nat} (h : c.Within k n) (x : K) (hn : n + 1 < c.cap) :
    (c.add x).1.Within k (n + 1) := by
  by_cases hx : x = k
  · subst hx; exact within_add_self c x (by omega) _
  obtain ⟨l, r, hi, hl⟩ := h
  unfold LRU.add; split
  · refine ⟨x :: l.filter (fun y => y ≠ x), r.filter (fun y => y ≠ x), ?_, ?_⟩
    · have hk : k ≠ x := Ne.symm hx
      simp [hi, hk]
    · have := List.length_filter_le (fun y => decide (y ≠ x)) l
      simp; simp at this; omega
  · split
    · exact ⟨x :: l, r, by simp [hi], by simp; omega⟩
    · rename_i h1 h2
      cases r with
      | nil => simp [hi] at h2; omega
      | cons a r =>
        refine ⟨x :: l, (a :: r).dropLast, ?_, by simp; omega⟩
        simp only [hi]
        rw [show x :: (l ++ k :: a :: r) = (x :: l ++ [k]) ++ (a :: r) by simp, List.dropLast_append_of_ne_nil (by simp)]
        simp

end LRU
end Verif
