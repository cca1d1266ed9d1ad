import Verif.Spec.Kafka
import Verif.Proofs.GMap
import Verif.Proofs.Produced
/-! Proofs about the Kafka transport. -/
namespace Verif
open Spec

/-! ## Splitting and joining -/

theorem splitOn_none {sep : UInt8} {s : GoStr} (h : sep ∉ s) : splitOn sep s = [s] := by
  induction s with
  | nil => rfl
  | cons c s ih =>
    simp only [List.mem_cons, not_or] at h
    have : ¬ c = sep := fun e => h.1 e.symm
    simp [splitOn, this, ih h.2]

theorem splitOn_append {sep : UInt8} {s t : GoStr} (h : sep ∉ s) : splitOn sep (s ++ sep :: t) = s :: splitOn sep t := by
  induction s with
  | nil => simp [splitOn]
  | cons c s ih =>
    simp only [List.mem_cons, not_or] at h
    have : ¬ c = sep := fun e => h.1 e.symm
    simp [splitOn, this, ih h.2]

theorem splitOn_join {sep : UInt8} {l : List GoStr} (hl : l ≠ []) (h : ∀ s ∈ l, sep ∉ s) : splitOn sep (joinWith sep l) = l := by
  induction l with
  | nil => exact absurd rfl hl
  | cons s l ih =>
    cases l with
    | nil => exact splitOn_none (h s (by simp))
    | cons t l =>
      show splitOn sep (s ++ sep :: joinWith sep (t :: l)) = _
      rw [splitOn_append (h s (by simp)), ih (by simp) (fun x hx => h x (by simp [hx]))]

/-! ## Numbers -/

theorem digit_natDigit {n : Nat} (h : n < 10) : digit? (UInt8.ofNat (48 + n)) = some n := by
  have : ∀ n : Fin 10, digit? (UInt8.ofNat (48 + n.val)) = some n.val := by decide
  exact this ⟨n, h⟩

theorem digitsNat_snoc {s : GoStr} {acc d n : Nat} {c : UInt8} (hs : digitsNat acc s = some n) (hc : digit? c = some d) :
    digitsNat acc (s ++ [c]) = some (n * 10 + d) := by
  induction s generalizing acc with
  | nil =>
    simp only [digitsNat, Option.some.injEq] at hs
    simp [digitsNat, hc, hs]
  | cons a s ih =>
    simp only [digitsNat, List.cons_append] at hs ⊢
    cases ha : digit? a with
    | none => simp [ha] at hs
    | some x => simp only [ha] at hs ⊢; exact ih hs

theorem digitsNat_natDigits (n : Nat) : digitsNat 0 (natDigits n) = some n := by
  induction n using Nat.strongRecOn with
  | _ n ih =>
    unfold natDigits
    split
    · next h =>
      show (match digit? (UInt8.ofNat (48 + n)) with | none => none | some d => digitsNat (0 * 10 + d) []) = some n
      rw [digit_natDigit h]
      simp [digitsNat]
    · next h =>
      rw [digitsNat_snoc (ih (n / 10) (by omega)) (digit_natDigit (Nat.mod_lt _ (by omega)))]
      congr 1; omega

theorem natDigits_mem {n : Nat} {c : UInt8} (h : c ∈ natDigits n) : ∃ d, digit? c = some d := by
  induction n using Nat.strongRecOn with
  | _ n ih =>
    unfold natDigits at h
    split at h
    · next hn =>
      rw [List.mem_singleton] at h
      exact ⟨n, by rw [h]; exact digit_natDigit hn⟩
    · rcases List.mem_append.mp h with h | h
      · exact ih (n / 10) (by omega) h
      · rw [List.mem_singleton] at h
        exact ⟨_, by rw [h]; exact digit_natDigit (Nat.mod_lt _ (by omega))⟩

theorem natDigits_ne_nil (n : Nat) : natDigits n ≠ [] := by
  unfold natDigits
  split <;> simp

theorem natDigits_cons (n : Nat) : ∃ c s, natDigits n = c :: s ∧ ∃ d, digit? c = some d := by
  cases h : natDigits n with
  | nil => exact absurd h (natDigits_ne_nil n)
  | cons c s => exact ⟨c, s, rfl, natDigits_mem (n := n) (by rw [h]; simp)⟩

theorem atoi_digits (i : Int) : atoi (intDigits i) = if minInt64 ≤ i ∧ i ≤ maxInt64 then some i else none := by
  unfold intDigits
  obtain ⟨c, s, hc, d, hd⟩ := natDigits_cons i.natAbs
  have hn := digitsNat_natDigits i.natAbs
  rw [hc] at hn
  split
  · next hneg =>
    rw [hc]
    have : -(i.natAbs : Int) = i := by omega
    have he : signOf (45 :: c :: s) = (true, c :: s) := by simp [signOf]
    simp [atoi, he, hn, this]
  · next hneg =>
    rw [hc]
    have h45 : c ≠ 45 := by rintro rfl; simp [digit?] at hd
    have h43 : c ≠ 43 := by rintro rfl; simp [digit?] at hd
    have : (i.natAbs : Int) = i := by omega
    have he : signOf (c :: s) = (false, c :: s) := by simp [signOf, h45, h43]
    simp [atoi, he, hn, this]

theorem atoi_intDigits {i : Int} (h : InInt64 i) : atoi (intDigits i) = some i := by
  rw [atoi_digits, if_pos]
  unfold InInt64 at h
  unfold minInt64 maxInt64
  omega

theorem intDigits_mem {i : Int} {c : UInt8} (h : c ∈ intDigits i) : c = 45 ∨ ∃ d, digit? c = some d := by
  unfold intDigits at h
  split at h
  · rcases List.mem_cons.mp h with h | h
    · exact .inl h
    · exact .inr (natDigits_mem h)
  · exact .inr (natDigits_mem h)

theorem intDigits_clean (i : Int) : (58 : UInt8) ∉ intDigits i ∧ (59 : UInt8) ∉ intDigits i ∧ (61 : UInt8) ∉ intDigits i := by
  refine ⟨?_, ?_, ?_⟩ <;>
  · intro h
    rcases intDigits_mem h with h | ⟨d, h⟩
    · exact absurd h (by decide)
    · simp [digit?] at h

/-! ## Resumption strings -/

/-- One entry of a resumption string. -/
def token (e : GoStr × Int) : GoStr := e.1 ++ 61 :: intDigits e.2

theorem parseToken_token {m : GMap GoStr Int} {e : GoStr × Int} (hc : CleanName e.1) (hv : InInt64 e.2) :
    parseToken m (token e) = .ok (m.insert e.1 e.2) := by
  unfold parseToken token
  rw [splitOn_append hc.2, splitOn_none (intDigits_clean e.2).2.2]
  simp [atoi_intDigits hv]

theorem token_clean {e : GoStr × Int} (hc : CleanName e.1) : (59 : UInt8) ∉ token e := by
  unfold token
  simp only [List.mem_append, List.mem_cons, not_or]
  exact ⟨hc.1, by decide, (intDigits_clean e.2).2.1⟩

theorem foldlM_tokens {l : List (GoStr × Int)} (hl : ∀ e ∈ l, CleanName e.1 ∧ InInt64 e.2) (m : GMap GoStr Int) :
    (l.map token).foldlM parseToken m = .ok (l.foldl (fun m e => m.insert e.1 e.2) m) := by
  induction l generalizing m with
  | nil => rfl
  | cons e l ih =>
    rw [List.map_cons, List.foldlM_cons, parseToken_token (hl e (by simp)).1 (hl e (by simp)).2]
    exact ih (fun e he => hl e (by simp [he])) _

theorem parse_tokens {l : List (GoStr × Int)} (hl : ∀ e ∈ l, CleanName e.1 ∧ InInt64 e.2) :
    parseResumption (joinWith 59 (l.map token)) = .ok (GMap.ofList l) := by
  unfold parseResumption
  by_cases he : l = []
  · subst he; rfl
  · rw [splitOn_join (by simpa using he) (by
      intro s hs
      obtain ⟨e, he, rfl⟩ := List.mem_map.mp hs
      exact token_clean (hl e he).1)]
    exact foldlM_tokens hl _

/-- Later entries win; all entries for one key agree here. -/
theorem get?_ofList_agree {K V : Type} [DecidableEq K] {l : List (K × V)} {k : K} {v : V} (hm : (k, v) ∈ l)
    (ha : ∀ w, (k, w) ∈ l → w = v) : (GMap.ofList l).get? k = some v := by
  unfold GMap.ofList
  suffices h : ∀ (l : List (K × V)) (m : GMap K V), (∀ w, (k, w) ∈ l → w = v) → ((k, v) ∈ l ∨ m.get? k = some v) →
      (l.foldl (fun m e => m.insert e.1 e.2) m).get? k = some v from h l _ ha (.inl hm)
  intro l
  induction l with
  | nil => rintro m _ (h | h)
           · simp at h
           · exact h
  | cons e l ih =>
    intro m ha hm
    refine ih _ (fun w hw => ha w (by simp [hw])) ?_
    obtain ⟨k', v'⟩ := e
    by_cases hk : k' = k
    · subst hk
      right
      have : v' = v := ha v' (by simp)
      simp [this]
    · rcases hm with hm | hm
      · simp only [List.mem_cons, Prod.mk.injEq] at hm
        rcases hm with ⟨e, _⟩ | hm
        · exact absurd e.symm hk
        · exact .inl hm
      · right
        show (m.insert k' v').get? k = some v
        rw [GMap.get?_insert_ne _ _ hk]; exact hm

theorem get?_ofList_none {K V : Type} [DecidableEq K] {l : List (K × V)} {k : K} (hm : ∀ v, (k, v) ∉ l) :
    (GMap.ofList l).get? k = none := by
  unfold GMap.ofList
  suffices h : ∀ (l : List (K × V)) (m : GMap K V), (∀ v, (k, v) ∉ l) → m.get? k = none →
      (l.foldl (fun m e => m.insert e.1 e.2) m).get? k = none from h l _ hm rfl
  intro l
  induction l with
  | nil => intro m _ h; exact h
  | cons e l ih =>
    intro m ha hm
    refine ih _ (fun w hw => ha w (by simp [hw])) ?_
    obtain ⟨k', v'⟩ := e
    have hk : k' ≠ k := by rintro rfl; exact ha v' (by simp)
    show (m.insert k' v').get? k = none
    rw [GMap.get?_insert_ne _ _ hk]; exact hm

theorem resumption_roundtrip {o : MapOrder} {pb : PB} (hw : Writable pb) :
    ∃ m, parseResumption (pb.resumptionString o) = .ok m ∧ ∀ k, m.get? k = recorded pb k := by
  let l := o.ord 0 pb.resumption.entries ++ (o.ord 1 pb.resumptionDefaults.entries).filter (fun e => !pb.resumption.contains e.1)
  have hs : pb.resumptionString o = joinWith 59 (l.map token) := by
    simp only [PB.resumptionString, l, List.map_append]; rfl
  have hmem : ∀ k v, (k, v) ∈ l ↔ recorded pb k = some v := by
    intro k v
    simp only [l, List.mem_append, List.mem_filter, (o.perm _ _).mem_iff, ← GMap.get?_eq_some_iff, recorded, Bool.not_eq_true',
      GMap.contains_eq_false]
    cases pb.resumption.get? k <;> simp
  have hl : ∀ e ∈ l, CleanName e.1 ∧ InInt64 e.2 := by
    rintro ⟨k, v⟩ he
    have := (hmem k v).mp he
    refine hw k v ?_
    unfold recorded at this
    cases h : pb.resumption.get? k with
    | none => rw [h] at this; exact .inr (by simpa using this)
    | some x => rw [h] at this; exact .inl (by simpa using this)
  refine ⟨_, by rw [hs]; exact parse_tokens hl, ?_⟩
  · intro k
    cases h : recorded pb k with
    | none => exact get?_ofList_none (fun v hv => by rw [(hmem k v).mp hv] at h; simp at h)
    | some v =>
      refine get?_ofList_agree ((hmem k v).mpr h) (fun w hw => ?_)
      rw [(hmem k w).mp hw] at h
      exact Option.some.inj h

/-! ## Source names -/

theorem natDigits_inj {a b : Nat} (h : natDigits a = natDigits b) : a = b := by
  have := digitsNat_natDigits a
  rw [h, digitsNat_natDigits] at this
  exact (Option.some.inj this).symm

theorem intDigits_inj {a b : Int} (h : intDigits a = intDigits b) : a = b := by
  have h45 : ∀ n s, natDigits n ≠ 45 :: s := by
    intro n s e
    obtain ⟨d, hd⟩ := natDigits_mem (n := n) (c := 45) (by rw [e]; simp)
    simp [digit?] at hd
  unfold intDigits at h
  split at h <;> split at h
  · simp only [List.cons.injEq, true_and] at h
    have := natDigits_inj h; omega
  · exact absurd h.symm (h45 _ _)
  · exact absurd h (h45 _ _)
  · have := natDigits_inj h; omega

theorem append_sep_inj {sep : UInt8} {s s' t t' : GoStr} (ht : sep ∉ t) (ht' : sep ∉ t') (h : s ++ sep :: t = s' ++ sep :: t') :
    s = s' ∧ t = t' := by
  have hr := congrArg List.reverse h
  simp only [List.reverse_append, List.reverse_cons, List.append_assoc, List.singleton_append] at hr
  have h1 : splitOn sep (t.reverse ++ sep :: s.reverse) = t.reverse :: splitOn sep s.reverse := splitOn_append (by simpa using ht)
  have h2 : splitOn sep (t'.reverse ++ sep :: s'.reverse) = t'.reverse :: splitOn sep s'.reverse := splitOn_append (by simpa using ht')
  rw [hr, h2] at h1
  have : t = t' := List.reverse_inj.mp (List.cons.inj h1).1.symm
  subst this
  have := List.append_cancel_left hr
  simp only [List.cons.injEq, true_and] at this
  exact ⟨List.reverse_inj.mp this, rfl⟩

theorem sourceOf_inj {t t' : GoStr} {p p' : Int} (h : sourceOf t p = sourceOf t' p') : t = t' ∧ p = p' := by
  obtain ⟨h1, h2⟩ := append_sep_inj (intDigits_clean p).1 (intDigits_clean p').1 h
  exact ⟨h1, intDigits_inj h2⟩

/-! ## LRU caches and histories -/

/-- The different elements of a history (oldest first), the most recent first. -/
def recents : List Hash → List Hash := fun hist => hist.foldl (fun l h => h :: l.filter (· ≠ h)) []

theorem recents_snoc (hist : List Hash) (h : Hash) : recents (hist ++ [h]) = h :: (recents hist).filter (· ≠ h) := by
  simp [recents, List.foldl_append]

theorem snoc_induction {α : Type _} {P : List α → Prop} (nil : P []) (snoc : ∀ l a, P l → P (l ++ [a])) (l : List α) : P l := by
  have : ∀ l : List α, P l.reverse := by
    intro l
    induction l with
    | nil => exact nil
    | cons a l ih => rw [List.reverse_cons]; exact snoc _ _ ih
  simpa using this l.reverse

theorem mem_recents {hist : List Hash} {x : Hash} : x ∈ recents hist ↔ x ∈ hist := by
  induction hist using snoc_induction with
  | nil => simp [recents]
  | snoc hist h ih =>
    rw [recents_snoc]
    simp only [List.mem_cons, List.mem_filter, ih, List.mem_append]
    by_cases e : x = h <;> simp [e]

theorem nodup_recents (hist : List Hash) : (recents hist).Nodup := by
  induction hist using snoc_induction with
  | nil => simp [recents]
  | snoc hist h ih =>
    rw [recents_snoc, List.nodup_cons]
    exact ⟨by simp, List.filter_sublist.nodup ih⟩

theorem filter_ne_take {l : List Hash} {k : Hash} {n : Nat} (hd : l.Nodup) (hk : k ∈ l.take (n + 1)) :
    (l.take (n + 1)).filter (· ≠ k) = (l.filter (· ≠ k)).take n := by
  induction l generalizing n with
  | nil => simp
  | cons a l ih =>
    have hd' := List.nodup_cons.mp hd
    rw [List.take_succ_cons]
    by_cases e : a = k
    · subst e
      have h1 : l.filter (· ≠ a) = l := List.filter_eq_self.mpr (by
        intro x hx; simp only [ne_eq, decide_not, Bool.not_eq_true', decide_eq_false_iff_not]; rintro rfl; exact hd'.1 hx)
      have h2 : (l.take n).filter (· ≠ a) = l.take n := List.filter_eq_self.mpr (by
        intro x hx; simp only [ne_eq, decide_not, Bool.not_eq_true', decide_eq_false_iff_not]; rintro rfl
        exact hd'.1 (List.mem_of_mem_take hx))
      rw [List.filter_cons, List.filter_cons, h1, h2]; simp
    · rw [List.take_succ_cons, List.mem_cons] at hk
      have hk := hk.resolve_left (fun h => e h.symm)
      cases n with
      | zero => simp at hk
      | succ n =>
        rw [List.filter_cons, List.filter_cons]
        simp only [ne_eq, e, not_false_eq_true, decide_true, if_true, List.take_succ_cons]
        rw [← ih hd'.2 hk]

theorem filter_ne_take' {l : List Hash} {k : Hash} {n : Nat} (hk : k ∉ l.take n) : (l.filter (· ≠ k)).take n = l.take n := by
  induction l generalizing n with
  | nil => simp
  | cons a l ih =>
    cases n with
    | zero => simp
    | succ n =>
      simp only [List.take_succ_cons, List.mem_cons, not_or] at hk
      rw [List.filter_cons]
      have : ¬ a = k := fun e => hk.1 e.symm
      simp only [ne_eq, this, not_false_eq_true, decide_true, if_true, List.take_succ_cons]
      rw [ih hk.2]

theorem add_recents {c : LRU Hash} {hist : List Hash} (h0 : 0 < c.cap) (hc : c.items = (recents hist).take c.cap) (k : Hash) :
    (c.add k).1.items = (recents (hist ++ [k])).take c.cap := by
  rw [recents_snoc]
  obtain ⟨n, hn⟩ : ∃ n, c.cap = n + 1 := ⟨c.cap - 1, by omega⟩
  rw [hn] at hc ⊢
  rw [List.take_succ_cons]
  unfold LRU.add
  split
  · next hk =>
    show k :: c.items.filter (· ≠ k) = _
    rw [hc] at hk ⊢
    rw [filter_ne_take (nodup_recents hist) hk]
  · next hk =>
    rw [hc] at hk
    split
    · next hl =>
      show k :: c.items = _
      rw [hc, hn] at hl
      have hlen : (recents hist).length ≤ n := by
        rw [List.length_take] at hl; omega
      rw [hc, List.take_of_length_le (by omega)] 
      rw [List.take_of_length_le (by omega)] at hk
      rw [List.take_of_length_le (Nat.le_trans (List.length_filter_le _ _) hlen), List.filter_eq_self.mpr]
      intro x hx
      simp only [ne_eq, decide_not, Bool.not_eq_true', decide_eq_false_iff_not]
      rintro rfl; exact hk hx
    · next hl =>
      show (k :: c.items).dropLast = _
      rw [hc, hn] at hl
      have hlen : n + 1 ≤ (recents hist).length := by
        rw [List.length_take] at hl; omega
      have hk' : k ∉ (recents hist).take n := fun h => hk (List.mem_of_mem_take (i := n) (by rw [List.take_take]; simpa using h))
      rw [filter_ne_take' hk', hc, List.dropLast_eq_take, List.length_cons, List.length_take, Nat.min_eq_left hlen]
      simp only [Nat.add_sub_cancel]
      rw [List.take_succ_cons, List.take_take]
      simp

theorem addAll_recents {c : LRU Hash} {hist : List Hash} (h0 : 0 < c.cap) (hc : c.items = (recents hist).take c.cap) (ks : List Hash) :
    (c.addAll ks).items = (recents (hist ++ ks)).take c.cap ∧ (c.addAll ks).cap = c.cap := by
  induction ks generalizing c hist with
  | nil => exact ⟨by simpa [LRU.addAll] using hc, rfl⟩
  | cons k ks ih =>
    have h1 := LRU.add_cap c k
    have h2 := add_recents h0 hc k
    have := ih (c := (c.add k).1) (hist := hist ++ [k]) (by omega) (by rw [h1]; exact h2)
    rw [List.append_assoc] at this
    rw [h1] at this
    exact this

theorem recents_append (a b : List Hash) : recents (a ++ b) = recents b ++ (recents a).filter (· ∉ b) := by
  induction b using snoc_induction with
  | nil =>
    have : (recents a).filter (· ∉ ([] : List Hash)) = recents a := List.filter_eq_self.mpr (by simp)
    rw [this]; simp [recents]
  | snoc b h ih =>
    rw [← List.append_assoc, recents_snoc, ih, recents_snoc, List.filter_append, List.cons_append, List.filter_filter]
    congr 2
    apply List.filter_congr
    intro x _
    simp [Bool.decide_and, not_or, and_comm]

theorem last_split {α : Type} [DecidableEq α] {l : List α} {a : α} (h : a ∈ l) : ∃ l1 l2, l = l1 ++ a :: l2 ∧ a ∉ l2 := by
  induction l with
  | nil => simp at h
  | cons b l ih =>
    by_cases hl : a ∈ l
    · obtain ⟨l1, l2, e, hn⟩ := ih hl
      exact ⟨b :: l1, l2, by rw [e]; rfl, hn⟩
    · have : a = b := (List.mem_cons.mp h).resolve_right hl
      exact ⟨[], l, by rw [this]; rfl, hl⟩

theorem seenLately_iff {n : Nat} {hist : List Hash} {h : Hash} : SeenLately n hist h ↔ h ∈ (recents hist).take n := by
  have key : ∀ l1 l2, hist = l1 ++ h :: l2 → h ∉ l2 → (h ∈ (recents hist).take n ↔ (recents l2).length < n) := by
    intro l1 l2 e hl
    have hr : recents hist = recents l2 ++ h :: (recents l1).filter (· ∉ h :: l2) := by
      rw [e, show l1 ++ h :: l2 = (l1 ++ [h]) ++ l2 by simp, recents_append, recents_snoc]
      rw [List.filter_cons]
      simp only [hl, not_false_eq_true, decide_true, if_true, List.filter_filter]
      congr 2
      apply List.filter_congr
      intro x _
      simp [not_or, Bool.and_comm]
    have hn : h ∉ recents l2 := fun x => hl (mem_recents.mp x)
    rw [hr, List.take_append, List.mem_append]
    constructor
    · rintro (hx | hx)
      · exact absurd (List.mem_of_mem_take hx) hn
      · refine Classical.byContradiction fun hc => ?_
        rw [show n - (recents l2).length = 0 by omega] at hx
        simp at hx
    · intro hlt
      right
      obtain ⟨k, hk⟩ : ∃ k, n - (recents l2).length = k + 1 := ⟨n - (recents l2).length - 1, by omega⟩
      rw [hk]; simp
  constructor
  · rintro ⟨l1, l2, e, hl, hL⟩
    exact (key l1 l2 e hl).mpr (hL _ (nodup_recents l2) (fun x hx => mem_recents.mp hx))
  · intro hm
    have hh : h ∈ hist := mem_recents.mp (List.mem_of_mem_take hm)
    obtain ⟨l1, l2, e, hl⟩ : ∃ l1 l2, hist = l1 ++ h :: l2 ∧ h ∉ l2 := by
      exact last_split hh
    refine ⟨l1, l2, e, hl, fun L hd hs => ?_⟩
    have := (key l1 l2 e hl).mp hm
    exact Nat.lt_of_le_of_lt (nodup_length_le hd (fun x hx => mem_recents.mpr (hs x hx))) this

/-! ## Handing over -/

/-- Everything but what was sent and the tick is the same. -/
structure SameKP (a b : KP) : Prop where
  dp : b.dp = a.dp
  topic : b.reorgTopic = a.reorgTopic
  recent : b.recentHashes = a.recentHashes
  skip : b.skipBatches = a.skipBatches

theorem SameKP.refl (a : KP) : SameKP a a := ⟨rfl, rfl, rfl, rfl⟩
theorem SameKP.trans {a b c : KP} (h : SameKP a b) (h' : SameKP b c) : SameKP a c :=
  ⟨h'.dp.trans h.dp, h'.topic.trans h.topic, h'.recent.trans h.recent, h'.skip.trans h.skip⟩

/-- `pre` was handed over; it is all of `l` unless there was an error. -/
def HandedOver (kp kp' : KP) (l : List (GoStr × Msg)) (e : Option Err) : Prop :=
  SameKP kp kp' ∧ ∃ pre post, l = pre ++ post ∧ kp'.sent = kp.sent ++ pre ∧ (e = none ↔ post = [])

theorem emitAll_handed (E : ErrSched) (kp : KP) (topic : GoStr) (ms : List Msg) :
    HandedOver kp (kp.emitAll E topic ms).1 (ms.map (fun m => (topic, m))) (kp.emitAll E topic ms).2 := by
  induction ms generalizing kp with
  | nil => exact ⟨.refl _, [], [], rfl, by simp [KP.emitAll], by simp [KP.emitAll]⟩
  | cons m ms ih =>
    unfold KP.emitAll KP.emit
    cases h : E kp.tick with
    | some e => exact ⟨⟨rfl, rfl, rfl, rfl⟩, [], _, rfl, by simp, by simp⟩
    | none =>
      obtain ⟨hs, pre, post, h1, h2, h3⟩ := ih { kp with sent := kp.sent ++ [(topic, m)], tick := kp.tick + 1 }
      have h0 : SameKP kp { kp with sent := kp.sent ++ [(topic, m)], tick := kp.tick + 1 } := ⟨rfl, rfl, rfl, rfl⟩
      refine ⟨h0.trans hs, (topic, m) :: pre, post, by simp [h1], ?_, h3⟩
      simp only [h2, List.append_assoc, List.singleton_append]

theorem emitTopics_handed (E : ErrSched) (kp : KP) (ht : kp.reorgTopic = []) (es : List (GoStr × List Msg)) :
    HandedOver kp (kp.emitTopics E es).1 (es.flatMap (fun e => e.2.map (fun m => (e.1, m)))) (kp.emitTopics E es).2 := by
  induction es generalizing kp with
  | nil => exact ⟨.refl _, [], [], rfl, by simp [KP.emitTopics], by simp [KP.emitTopics]⟩
  | cons x es ih =>
    obtain ⟨topic, ms⟩ := x
    unfold KP.emitTopics
    simp only [ht, ne_eq, not_true_eq_false, if_false]
    have h := emitAll_handed E kp topic ms
    generalize kp.emitAll E topic ms = r at h ⊢
    obtain ⟨kp1, e⟩ := r
    obtain ⟨hs, pre, post, h1, h2, h3⟩ := h
    cases e with
    | some e =>
      refine ⟨hs, pre, post ++ es.flatMap (fun e => e.2.map (fun m => (e.1, m))), by simp [h1], h2, ?_⟩
      simp only [reduceCtorEq, false_iff, List.append_eq_nil_iff] at h3 ⊢
      exact fun hc => h3 hc.1
    | none =>
      have hp : post = [] := h3.mp rfl
      subst hp
      obtain ⟨hs', pre', post', g1, g2, g3⟩ := ih kp1 (hs.topic.trans ht)
      refine ⟨hs.trans hs', pre ++ pre', post', ?_, ?_, g3⟩
      · rw [List.flatMap_cons, g1, h1]; simp
      · simp only [g2]
        rw [h2]
        simp

theorem emitBundle_handed (E : ErrSched) (o : MapOrder) (kp : KP) (ht : kp.reorgTopic = []) (bundle : GMap GoStr (List Msg)) :
    ∃ l, Listing bundle l ∧ HandedOver kp (kp.emitBundle E o bundle).1 l (kp.emitBundle E o bundle).2 :=
  ⟨_, ⟨_, o.perm 0 _, rfl⟩, emitTopics_handed E kp ht _⟩

theorem emitBundle_same (E : ErrSched) (o : MapOrder) (kp : KP) (bundle : GMap GoStr (List Msg)) :
    SameKP kp (kp.emitBundle E o bundle).1 := by
  unfold KP.emitBundle
  generalize o.ord 0 bundle.entries = es
  induction es generalizing kp with
  | nil => exact .refl _
  | cons x es ih =>
    obtain ⟨topic, ms⟩ := x
    unfold KP.emitTopics
    have h := emitAll_handed E kp (if kp.reorgTopic ≠ [] then kp.reorgTopic else topic) ms
    generalize kp.emitAll E (if kp.reorgTopic ≠ [] then kp.reorgTopic else topic) ms = r at h ⊢
    obtain ⟨kp1, e⟩ := r
    cases e with
    | some e => exact h.1
    | none => exact h.1.trans (ih kp1)

/-! ## The replay caches -/

/-- What the caches and the topic are after a history. -/
structure Caches (es : List KEv) (kp : KP) : Prop where
  topic : kp.reorgTopic = []
  rcap : kp.recentHashes.cap = 4096
  recent : kp.recentHashes.items = (recents (observedOf es)).take 4096
  scap : kp.skipBatches.cap = 1024
  skip : ∃ ids, Skipped es ids ∧ kp.skipBatches.items = (recents ids).take 1024

theorem Caches.seen {es : List KEv} {kp : KP} (h : Caches es kp) {x : Hash} :
    kp.recentHashes.contains x = true ↔ SeenLately 4096 (observedOf es) x := by
  rw [LRU.contains_iff, h.recent, seenLately_iff]

theorem observedOf_snoc (es : List KEv) (e : KEv) : observedOf (es ++ [e]) = match e with
    | .observed h => observedOf es ++ [h]
    | .purge => []
    | _ => observedOf es := by
  unfold observedOf
  rw [List.foldl_append]
  cases e <;> rfl

theorem addBlock_skip {C : Codec} {E : ErrSched} {o o' : MapOrder} {kp : KP} {n : Int} {h p : Hash} {w : Int} {u : GMap GoStr Bytes}
    {d : GMap GoStr Unit} {b : GMap GoStr Hash} (hc : kp.recentHashes.contains h = true) : kp.addBlock C E o o' n h p w u d b =
    ({ kp with skipBatches := kp.skipBatches.addAll ((o'.ord 1 b.entries).map Prod.snd) }, none) := by
  unfold KP.addBlock; rw [if_pos hc]

theorem addBlock_same {C : Codec} {E : ErrSched} {o o' : MapOrder} {kp : KP} {n : Int} {h p : Hash} {w : Int} {u : GMap GoStr Bytes}
    {d : GMap GoStr Unit} {b : GMap GoStr Hash} (hc : ¬ kp.recentHashes.contains h = true) :
    let kp' := (kp.addBlock C E o o' n h p w u d b).1
    kp'.reorgTopic = kp.reorgTopic ∧ kp'.recentHashes = kp.recentHashes ∧ kp'.skipBatches = kp.skipBatches := by
  unfold KP.addBlock
  rw [if_neg hc]
  generalize Verif.addBlock C o kp.dp n h p w u d b = r
  obtain ⟨dp, r⟩ := r
  cases r with
  | error e => exact ⟨rfl, rfl, rfl⟩
  | ok tm =>
    have := emitBundle_same E o' { kp with dp := dp } tm
    exact ⟨this.topic, this.recent, this.skip⟩

theorem sendBatch_same {C : Codec} {E : ErrSched} {o o' : MapOrder} {kp : KP} {i : Hash} {d : List GoStr} {u : GMap GoStr Bytes} :
    let kp' := (kp.sendBatch C E o o' i d u).1
    kp'.reorgTopic = kp.reorgTopic ∧ kp'.recentHashes = kp.recentHashes ∧ kp'.skipBatches = kp.skipBatches := by
  unfold KP.sendBatch
  generalize Verif.sendBatch C o kp.dp i d u = r
  obtain ⟨dp, r⟩ := r
  cases r with
  | error e => simp only []; split <;> exact ⟨rfl, rfl, rfl⟩
  | ok tm =>
    have := emitBundle_same E o' { kp with dp := dp } tm
    exact ⟨this.topic, this.recent, this.skip⟩

theorem caches_step {C : Codec} {E : ErrSched} {es : List KEv} {e : KEv} {kp kp' : KP} (h : Caches es kp) (hs : Spec.KP.Step C E kp e kp') :
    Caches (es ++ [e]) kp' := by
  obtain ⟨ids, hids, hskip⟩ := h.skip
  cases hs with
  | observed =>
    next x =>
    refine ⟨h.topic, (LRU.add_cap _ _).trans h.rcap, ?_, h.scap, ids, .observed hids, hskip⟩
    rw [observedOf_snoc]
    have := add_recents (c := kp.recentHashes) (hist := observedOf es) (by rw [h.rcap]; decide) (by rw [h.rcap]; exact h.recent) x
    rw [h.rcap] at this
    exact this
  | purge =>
    refine ⟨h.topic, h.rcap, ?_, h.scap, [], .purge hids, ?_⟩
    · rw [observedOf_snoc]; rfl
    · rfl
  | sendBatch =>
    obtain ⟨h1, h2, h3⟩ := sendBatch_same (C := C) (E := E) (kp := kp)
    refine ⟨h1.trans h.topic, ?_, ?_, ?_, ids, .sendBatch hids, ?_⟩
    · rw [h2]; exact h.rcap
    · rw [h2, observedOf_snoc]; exact h.recent
    · rw [h3]; exact h.scap
    · rw [h3]; exact hskip
  | addBlock =>
    next o o' n x p w u d b =>
    by_cases hc : kp.recentHashes.contains x = true
    · rw [addBlock_skip hc]
      have := addAll_recents (c := kp.skipBatches) (hist := ids) (by rw [h.scap]; decide) (by rw [h.scap]; exact hskip)
        ((o'.ord 1 b.entries).map Prod.snd)
      rw [h.scap] at this
      refine ⟨h.topic, h.rcap, ?_, this.2, _, .skip hids (h.seen.mp hc) ((o'.perm 1 _).map _), this.1⟩
      rw [observedOf_snoc]; exact h.recent
    · obtain ⟨h1, h2, h3⟩ := addBlock_same (C := C) (E := E) (o := o) (o' := o') (n := n) (p := p) (w := w) (u := u) (d := d) (b := b) hc
      refine ⟨h1.trans h.topic, ?_, ?_, ?_, ids, .keep hids (fun hx => hc (h.seen.mpr hx)), ?_⟩
      · rw [h2]; exact h.rcap
      · rw [h2, observedOf_snoc]; exact h.recent
      · rw [h3]; exact h.scap
      · rw [h3]; exact hskip

theorem caches_run {C : Codec} {E : ErrSched} {dp : Producer} {es : List KEv} {kp : KP} (h : Spec.KP.Run C E (newKP dp) es kp) :
    Caches es kp := by
  induction h with
  | nil => exact ⟨rfl, rfl, rfl, rfl, [], .nil, rfl⟩
  | snoc _ hs ih => exact caches_step ih hs

/-! ## Heartbeats -/

theorem lastBeat_snoc (hist : List (Hash × Int)) (e : Hash × Int) (id : Hash) :
    lastBeat (hist ++ [e]) id = if e.1 = id then some e.2 else lastBeat hist id := by
  unfold lastBeat
  rw [List.reverse_append, List.reverse_singleton, List.singleton_append, List.find?_cons]
  by_cases h : e.1 = id <;> simp [h]

/-- The tracker after a history of heartbeats. -/
def tracked (hist : List (Hash × Int)) : PingTracker := hist.foldl (fun pt e => PingTracker.update pt e.1 e.2) GMap.empty

theorem tracked_get? (hist : List (Hash × Int)) (id : Hash) : (tracked hist).get? id = lastBeat hist id := by
  induction hist using snoc_induction with
  | nil => rfl
  | snoc hist e ih =>
    rw [lastBeat_snoc]
    have : tracked (hist ++ [e]) = (tracked hist).insert e.1 e.2 := by simp [tracked, PingTracker.update, List.foldl_append]
    rw [this, GMap.get?_insert, ih]

theorem count_foldl {l : List (Hash × Int)} {p : Hash × Int → Prop} [DecidablePred p] (c : UInt64) :
    l.foldl (fun count e => if p e then count + 1 else count) c = c + UInt64.ofNat (l.filter (fun e => decide (p e))).length := by
  induction l generalizing c with
  | nil => simp
  | cons e l ih =>
    rw [List.foldl_cons, ih, List.filter_cons]
    split
    · next h =>
      simp only [h, decide_true, if_true, List.length_cons]
      rw [UInt64.ofNat_add, UInt64.add_comm (UInt64.ofNat _), UInt64.add_assoc]; rfl
    · next h => simp [h]

end Verif
