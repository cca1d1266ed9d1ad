import Verif.Model.Consumer
import Verif.Spec.Path
import Verif.Proofs.GMap
/-! `path.Dir` and the prefix search. -/
namespace Verif
open Spec Path

theorem eq_nil_or_snoc {α : Type} (l : List α) : l = [] ∨ ∃ a s, l = a ++ [s] := by
  induction l with
  | nil => simp
  | cons x l ih =>
    right
    rcases ih with rfl | ⟨a, s, rfl⟩
    · exact ⟨[], x, rfl⟩
    · exact ⟨x :: a, s, rfl⟩

theorem split_ne_nil (p : GoStr) : split p ≠ [] := by
  cases p with
  | nil => simp [split]
  | cons b bs =>
    simp only [split]
    split
    · simp
    · split <;> simp

theorem split_no_slash (p : GoStr) : ∀ s ∈ split p, slash ∉ s := by
  induction p with
  | nil => simp [split]
  | cons b bs ih =>
    simp only [split]
    by_cases h : b = slash
    · simp only [h, if_true, List.mem_cons]; rintro s (rfl | hs)
      · simp
      · exact ih s hs
    · simp only [h, if_false]
      cases hs : split bs with
      | nil => simp; exact fun e => h e.symm
      | cons s ss =>
        rw [hs] at ih
        simp only [List.mem_cons]
        rintro t (rfl | ht)
        · have := ih s (by simp)
          simp; exact ⟨fun e => h e.symm, this⟩
        · exact ih t (by simp [ht])

/-- Sum of lengths plus one per element. -/
def cost (l : List GoStr) : Nat := (l.map (fun s => s.length + 1)).sum

theorem cost_split (p : GoStr) : cost (split p) = p.length + 1 := by
  induction p with
  | nil => simp [split, cost]
  | cons b bs ih =>
    simp only [split]
    by_cases h : b = slash
    · simp [h, cost] at ih ⊢; omega
    · simp only [h, if_false]
      cases hs : split bs with
      | nil => exact absurd hs (split_ne_nil bs)
      | cons s ss => rw [hs] at ih; simp [cost] at ih ⊢; omega

theorem split_append_slash (q r : GoStr) : split (q ++ slash :: r) = split q ++ split r := by
  induction q with
  | nil => simp [split]
  | cons b bs ih =>
    simp only [List.cons_append, split, ih]
    by_cases h : b = slash
    · simp [h]
    · simp only [h, if_false]
      cases hs : split bs with
      | nil => exact absurd hs (split_ne_nil bs)
      | cons s ss => simp

theorem split_of_no_slash {s : GoStr} (h : slash ∉ s) : split s = [s] := by
  induction s with
  | nil => rfl
  | cons b bs ih =>
    simp only [List.mem_cons, not_or] at h
    simp [split, Ne.symm h.1, ih h.2]

theorem cost_cleanStep (rooted : Bool) (stack : List GoStr) (seg : GoStr) :
    cost (cleanStep rooted stack seg) ≤ cost stack + (if seg = [] then 0 else seg.length + 1) := by
  unfold cleanStep
  by_cases h1 : seg = [] ∨ seg = dot
  · simp [h1]
  · simp only [h1, if_false]
    have h1' : seg ≠ [] := fun e => h1 (.inl e)
    by_cases h2 : seg = dotdot
    · simp only [h2, if_true]
      cases stack with
      | nil => cases rooted <;> simp [cost, dotdot]
      | cons top rest =>
        by_cases h3 : top = dotdot
        · simp [h3, cost, dotdot]; omega
        · simp [h3, cost]; omega
    · simp only [h2, h1', if_false]
      simp [cost]; omega

theorem cost_foldl (rooted : Bool) (l stack : List GoStr) :
    cost (l.foldl (cleanStep rooted) stack) ≤ cost stack + (l.map (fun s => if s = [] then 0 else s.length + 1)).sum := by
  induction l generalizing stack with
  | nil => simp
  | cons s l ih =>
    have h1 := cost_cleanStep rooted stack s
    have h2 := ih (cleanStep rooted stack s)
    simp only [List.foldl_cons, List.map_cons, List.sum_cons]; omega

theorem sum_le_cost (l : List GoStr) : (l.map (fun s => if s = [] then 0 else s.length + 1)).sum ≤ cost l := by
  induction l with
  | nil => simp [cost]
  | cons s l ih => simp only [cost, List.map_cons, List.sum_cons] at ih ⊢; split <;> omega

theorem cost_reverse (l : List GoStr) : cost l.reverse = cost l := by
  unfold cost
  rw [List.map_reverse, List.sum_reverse]

theorem join_length (l : List GoStr) : (join l).length + 1 ≤ cost l ∨ l = [] := by
  induction l with
  | nil => simp
  | cons s l ih =>
    left
    cases l with
    | nil => simp [join, cost]
    | cons t ss => rcases ih with ih | ih
                   · simp [join, cost] at ih ⊢; omega
                   · simp at ih

/-- The stack holds only non-empty elements without slash. -/
def StackOK (l : List GoStr) : Prop := ∀ s ∈ l, s ≠ [] ∧ slash ∉ s

theorem stackOK_step {rooted : Bool} {stack : List GoStr} {seg : GoStr} (h : StackOK stack) (hs : slash ∉ seg) :
    StackOK (cleanStep rooted stack seg) := by
  unfold cleanStep
  by_cases h1 : seg = [] ∨ seg = dot
  · simpa [h1] using h
  · simp only [h1, if_false]
    have h1' : seg ≠ [] := fun e => h1 (.inl e)
    by_cases h2 : seg = dotdot
    · simp only [h2, if_true]
      cases stack with
      | nil => cases rooted <;> simp [StackOK, dotdot, slash]
      | cons top rest =>
        have hr : StackOK rest := fun s hs => h s (by simp [hs])
        by_cases h3 : top = dotdot
        · simp only [h3, if_true]
          intro s hs'
          rcases List.mem_cons.mp hs' with rfl | hs'
          · simp [dotdot, slash]
          · rcases List.mem_cons.mp hs' with rfl | hs'
            · simp [dotdot, slash]
            · exact hr s hs'
        · simpa [h3] using hr
    · simp only [h2, if_false]
      intro s hs'
      rcases List.mem_cons.mp hs' with rfl | hs'
      · exact ⟨h1', hs⟩
      · exact h s hs'

theorem stackOK_foldl {rooted : Bool} {l stack : List GoStr} (h : StackOK stack) (hl : ∀ s ∈ l, slash ∉ s) :
    StackOK (l.foldl (cleanStep rooted) stack) := by
  induction l generalizing stack with
  | nil => exact h
  | cons s l ih => exact ih (stackOK_step h (hl s (by simp))) (fun t ht => hl t (by simp [ht]))

theorem join_head {l : List GoStr} (h : StackOK l) : (join l).head? ≠ some slash := by
  cases l with
  | nil => simp [join]
  | cons s l =>
    obtain ⟨hs, hsl⟩ := h s (by simp)
    cases s with
    | nil => exact absurd rfl hs
    | cons b bs =>
      have : b ≠ slash := fun e => hsl (by simp [e])
      cases l with
      | nil => simpa [join] using this
      | cons t ss => simpa [join] using this

/-- `path.Clean` of a relative path that ends in a slash is "." or at least one byte shorter, and relative. -/
theorem clean_slash {q : GoStr} (h : Relative (q ++ [slash])) :
    Relative (clean (q ++ [slash])) ∧ (clean (q ++ [slash]) = dot ∨ (clean (q ++ [slash])).length ≤ q.length) := by
  have hr : ((q ++ [slash]).head? == some slash) = false := by
    have : (q ++ [slash]).head? ≠ some slash := h
    simpa using this
  unfold clean
  simp only [hr, Bool.false_eq_true, if_false, List.nil_append]
  have hsp : split (q ++ [slash]) = split q ++ [[]] := by
    have := split_append_slash q []
    simpa [split] using this
  rw [hsp]
  generalize hst : (split q ++ [[]]).foldl (cleanStep false) [] = stack
  have hok : StackOK stack := by
    rw [← hst]
    exact stackOK_foldl (by simp [StackOK]) (by intro s hs; rw [← hsp] at hs; exact split_no_slash _ s hs)
  have hokr : StackOK stack.reverse := fun s hs => hok s (by simpa using hs)
  have hc : cost stack ≤ q.length + 1 := by
    have h1 := cost_foldl false (split q ++ [[]]) []
    have h2 := sum_le_cost (split q)
    rw [hst] at h1
    rw [cost_split] at h2
    simp [cost] at h1 h2 ⊢; omega
  split
  · simp [dot, Relative]
  · refine ⟨join_head hokr, .inr ?_⟩
    rename_i hne
    rcases join_length stack.reverse with h | h
    · rw [cost_reverse] at h; omega
    · rw [h] at hne; simp [join] at hne

theorem dirPart_no_slash {last : GoStr} (h : slash ∉ last) : dirPart last = [] := by
  unfold dirPart
  have h2 : ∀ l : GoStr, slash ∉ l → l.dropWhile (fun x => decide (x ≠ slash)) = [] := by
    intro l hl
    induction l with
    | nil => rfl
    | cons b bs ih =>
      simp only [List.mem_cons, not_or] at hl
      simp [Ne.symm hl.1]; simpa using ih hl.2
  rw [h2 _ (by simpa using h)]; rfl

theorem dirPart_append {q last : GoStr} (h : slash ∉ last) : dirPart (q ++ slash :: last) = q ++ [slash] := by
  unfold dirPart
  have h1 : (q ++ slash :: last).reverse = last.reverse ++ slash :: q.reverse := by simp
  have h2 : ∀ (l r : GoStr), slash ∉ l → (l ++ slash :: r).dropWhile (fun x => decide (x ≠ slash)) = slash :: r := by
    intro l r hl
    induction l with
    | nil => simp
    | cons b bs ih =>
      simp only [List.mem_cons, not_or] at hl
      simp [Ne.symm hl.1]; simpa using ih hl.2
  rw [h1, h2 _ _ (by simpa using h)]; simp

/-- Every path is either without slash or has a last slash. -/
theorem last_slash (d : GoStr) : slash ∉ d ∨ ∃ q last, slash ∉ last ∧ d = q ++ slash :: last := by
  induction d with
  | nil => simp
  | cons b bs ih =>
    rcases ih with h | ⟨q, last, h, rfl⟩
    · by_cases hb : b = slash
      · exact .inr ⟨[], bs, h, by simp [hb]⟩
      · left; simp; exact ⟨fun e => hb e.symm, h⟩
    · exact .inr ⟨b :: q, last, h, by simp⟩

/-- `path.Dir` of a relative path is relative, and "." or shorter. -/
theorem dir_relative {d : GoStr} (h : Relative d) :
    Relative (dir d) ∧ (dir d = dot ∨ (dir d).length < d.length) := by
  rcases last_slash d with hs | ⟨q, last, hl, rfl⟩
  · have : dir d = dot := by unfold dir; rw [dirPart_no_slash hs]; rfl
    rw [this]; exact ⟨by simp [Relative, dot], .inl rfl⟩
  · have hr : Relative (q ++ [slash]) := by
      unfold Relative at h ⊢
      cases q with
      | nil => exact absurd rfl h
      | cons b bs => simpa using h
    have := clean_slash hr
    unfold dir
    rw [dirPart_append hl]
    refine ⟨this.1, this.2.imp_right fun h => ?_⟩
    simp; omega

/-- `path.Dir` of a rooted path is rooted. -/
theorem dir_rooted {d : GoStr} (h : ¬ Relative d) : ¬ Relative (dir d) := by
  unfold Relative at h ⊢
  simp only [ne_eq, Decidable.not_not] at h ⊢
  rcases last_slash d with hs | ⟨q, last, hl, rfl⟩
  · cases d with
    | nil => simp at h
    | cons b bs => simp at h; subst h; exact absurd (by simp [slash]) hs
  · unfold dir
    rw [dirPart_append hl]
    have : (q ++ [slash]).head? = some slash := by
      cases q with
      | nil => rfl
      | cons b bs => simpa [slash] using h
    unfold clean
    have hb : ((q ++ [slash]).head? == some slash) = true := by simp [this]
    simp only [hb, if_true]
    simp [slash]

/-- With enough fuel the search does not hang on relative paths. -/
theorem decPrefixLoop_relative (frp : Bool) (prefixes : GMap GoStr Int) (fuel : Nat) (d : GoStr) (h : Relative d)
    (hf : d.length + 2 ≤ fuel) : decPrefixLoop frp prefixes fuel d ≠ .error .hang := by
  induction fuel generalizing d with
  | zero => omega
  | succ n ih =>
    have hrec : d ≠ dot → decPrefixLoop frp prefixes n (dir d) ≠ .error .hang := by
      intro hd
      obtain ⟨h1, h2⟩ := dir_relative h
      rcases h2 with h2 | h2
      · rw [h2]
        cases n with
        | zero => omega
        | succ n => simp [decPrefixLoop]
      · exact ih _ h1 (by omega)
    unfold decPrefixLoop
    by_cases hd : d = dot
    · simp [hd]
    · simp only [hd, if_false]
      split
      · split
        · simp
        · split
          · simp
          · exact hrec hd
      · exact hrec hd

/-- On a rooted path the search over an empty table never ends. -/
theorem decPrefixLoop_rooted (frp : Bool) (fuel : Nat) (d : GoStr) (h : ¬ Relative d) :
    decPrefixLoop frp GMap.empty fuel d = .error .hang := by
  induction fuel generalizing d with
  | zero => rfl
  | succ n ih =>
    unfold decPrefixLoop
    have hd : d ≠ dot := by rintro rfl; exact h (by decide)
    simp only [hd, if_false]
    have : (GMap.empty : GMap GoStr Int).get? (dirKey d) = none := rfl
    rw [this]
    exact ih _ (dir_rooted h)

/-! ## Tidy keys -/

theorem dirs_append (a b : List GoStr) : dirs (a ++ b) = dirs a ++ dirs b := by simp [dirs]

theorem dirs_concat (a : List GoStr) (s : GoStr) : dirs (a ++ [s]) = dirs a ++ s ++ [slash] := by
  simp [dirs, slash]

theorem join_concat (a : List GoStr) (s : GoStr) : join (a ++ [s]) = dirs a ++ s := by
  induction a with
  | nil => simp [join, dirs]
  | cons t a ih =>
    cases a with
    | nil => simp [join, dirs, slash]
    | cons u us =>
      simp only [List.cons_append] at ih ⊢
      simp [join, ih, dirs, slash]

theorem cleanStep_tidy {stack : List GoStr} {s : GoStr} (h : Tidy s) : cleanStep false stack s = s :: stack := by
  obtain ⟨h1, h2, h3, -⟩ := h
  simp [cleanStep, h1, show s ≠ dot from h2, show s ≠ dotdot from h3]

theorem foldl_tidy {segs stack : List GoStr} (h : ∀ s ∈ segs, Tidy s) :
    segs.foldl (cleanStep false) stack = segs.reverse ++ stack := by
  induction segs generalizing stack with
  | nil => rfl
  | cons s segs ih =>
    rw [List.foldl_cons, cleanStep_tidy (h s (by simp)), ih (fun t ht => h t (by simp [ht]))]
    simp

theorem split_dirs {segs : List GoStr} (h : ∀ s ∈ segs, Tidy s) : split (dirs segs) = segs ++ [[]] := by
  induction segs with
  | nil => rfl
  | cons s segs ih =>
    have hs := h s (by simp)
    have e : dirs (s :: segs) = s ++ slash :: dirs segs := by simp [dirs, slash]
    rw [e, split_append_slash, ih (fun t ht => h t (by simp [ht])), split_of_no_slash hs.2.2.2]
    simp

theorem dirs_head {segs : List GoStr} (h : ∀ s ∈ segs, Tidy s) : (dirs segs).head? ≠ some slash := by
  cases segs with
  | nil => simp [dirs]
  | cons s segs =>
    obtain ⟨hs, _, _, hsl⟩ := h s (by simp)
    cases s with
    | nil => exact absurd rfl hs
    | cons b bs =>
      have : b ≠ slash := fun e => hsl (by simp [e, slash])
      simpa [dirs] using this

theorem clean_dirs {segs : List GoStr} (h : ∀ s ∈ segs, Tidy s) :
    clean (dirs segs) = if segs = [] then dot else join segs := by
  have hr : ((dirs segs).head? == some slash) = false := by simpa using dirs_head h
  unfold clean
  simp only [hr, Bool.false_eq_true, if_false, List.nil_append]
  rw [split_dirs h, List.foldl_append, foldl_tidy h]
  have : [([] : GoStr)].foldl (cleanStep false) (segs.reverse ++ []) = segs.reverse := by simp [cleanStep]
  rw [this, List.reverse_reverse]
  by_cases hs : segs = []
  · subst hs; rfl
  · simp only [hs, if_false]
    have : join segs ≠ [] := by
      cases segs with
      | nil => exact absurd rfl hs
      | cons s segs =>
        have hs1 := (h s (by simp)).1
        cases segs with
        | nil => exact hs1
        | cons t ts => simp [join]
    simp [this]

theorem dir_tidy {segs : List GoStr} {last : GoStr} (h : ∀ s ∈ segs, Tidy s) (hl : slash ∉ last) :
    dir (dirs segs ++ last) = if segs = [] then dot else join segs := by
  unfold dir
  have : dirPart (dirs segs ++ last) = dirs segs := by
    rcases eq_nil_or_snoc segs with rfl | ⟨a, s, rfl⟩
    · simpa [dirs] using dirPart_no_slash hl
    · rw [dirs_concat]
      have : dirs a ++ s ++ [slash] ++ last = (dirs a ++ s) ++ slash :: last := by simp
      rw [this, dirPart_append hl]
  rw [this, clean_dirs h]

theorem dirKey_join {segs : List GoStr} (h : ∀ s ∈ segs, Tidy s) (hne : segs ≠ []) :
    dirKey (join segs) = dirs segs := by
  rcases eq_nil_or_snoc segs with rfl | ⟨a, s, rfl⟩
  · exact absurd rfl hne
  · have hd := dirs_head h
    rw [dirs_concat] at hd ⊢
    rw [join_concat]
    unfold dirKey
    have hs := (h s (by simp)).1
    generalize hx : dirs a ++ s = x at hd ⊢
    cases x with
    | nil => simp at hx; exact absurd hx.2 hs
    | cons b bs =>
      have : b ≠ slash := by simpa using hd
      simp [this]

theorem join_ne_dot {segs : List GoStr} (h : ∀ s ∈ segs, Tidy s) : join segs ≠ dot := by
  rcases eq_nil_or_snoc segs with rfl | ⟨a, s, rfl⟩
  · simp [join, dot]
  · rw [join_concat]
    have hs := (h s (by simp))
    rcases eq_nil_or_snoc a with rfl | ⟨b, t, rfl⟩
    · simpa [dirs, dot] using hs.2.1
    · have ht := (h t (by simp)).1
      intro e
      have hlen := congrArg List.length e
      rw [dirs_concat] at hlen
      simp [dot] at hlen
      have h1 : t.length ≠ 0 := by simpa using ht
      omega

/-- The prefixes looked up for a key, after the key itself. -/
def candidates (k : GoStr) (segs : List GoStr) : List GoStr :=
  (k ++ [slash]) :: (List.range segs.length).reverse.map (fun j => dirs (segs.take (j + 1)))

/-- Search over a list of candidate prefixes: what the loop does. -/
def searchList (frp : Bool) (prefixes : GMap GoStr Int) : List GoStr → Except Fault (GMap GoStr Int × Bool)
  | [] => .ok (prefixes, false)
  | k :: ks =>
    match prefixes.get? k with
    | some v =>
      if v > 0 then .ok (prefixes.insert k (v - 1), true)
      else if v = 0 ∧ frp then .error .panic
      else searchList frp prefixes ks
    | none => searchList frp prefixes ks

/-- The directories of a tidy key, innermost first. -/
def updirs (segs : List GoStr) : List GoStr :=
  (List.range segs.length).reverse.map (fun j => dirs (segs.take (j + 1)))

theorem updirs_concat (a : List GoStr) (s : GoStr) : updirs (a ++ [s]) = dirs (a ++ [s]) :: updirs a := by
  unfold updirs
  rw [List.length_append, List.length_singleton, List.range_succ, List.reverse_append]
  simp only [List.reverse_cons, List.reverse_nil, List.nil_append, List.singleton_append, List.map_cons]
  congr 1
  · rw [List.take_of_length_le (by simp)]
  · apply List.map_congr_left
    intro j hj
    have : j < a.length := by simpa using hj
    rw [List.take_append_of_le_length (by omega)]

theorem mem_updirs {segs : List GoStr} {x : GoStr} :
    x ∈ updirs segs ↔ ∃ s1 s2, s1 ≠ [] ∧ segs = s1 ++ s2 ∧ x = dirs s1 := by
  unfold updirs
  simp only [List.mem_map, List.mem_reverse, List.mem_range]
  constructor
  · rintro ⟨j, hj, rfl⟩
    refine ⟨segs.take (j + 1), segs.drop (j + 1), ?_, by simp, rfl⟩
    intro e
    have := congrArg List.length e
    simp at this
    subst this; simp at hj
  · rintro ⟨s1, s2, hne, rfl, rfl⟩
    have : s1.length ≠ 0 := by simpa using hne
    refine ⟨s1.length - 1, by simp; omega, ?_⟩
    have : s1.length - 1 + 1 = s1.length := by omega
    rw [this]; simp

theorem loop_join {frp : Bool} {prefixes : GMap GoStr Int} {segs : List GoStr} (h : ∀ s ∈ segs, Tidy s) {fuel : Nat}
    (hf : segs.length + 1 ≤ fuel) :
    decPrefixLoop frp prefixes fuel (if segs = [] then dot else join segs) = searchList frp prefixes (updirs segs) := by
  induction hn : segs.length generalizing segs fuel with
  | zero =>
    have : segs = [] := by simpa using hn
    subst this
    cases fuel with
    | zero => omega
    | succ n => simp [decPrefixLoop, updirs, searchList]
  | succ n ih =>
    rcases eq_nil_or_snoc segs with rfl | ⟨a, s, rfl⟩
    · simp at hn
    have ha : a.length = n := by simpa using hn
    cases fuel with
    | zero => omega
    | succ fuel =>
      have hta : ∀ s ∈ a, Tidy s := fun t ht => h t (by simp [ht])
      have hne : a ++ [s] ≠ [] := by simp
      have hdir : dir (join (a ++ [s])) = if a = [] then dot else join a := by
        rw [join_concat]; exact dir_tidy hta (h s (by simp)).2.2.2
      have hrec := ih hta (fuel := fuel) (by simp at hf; omega) ha
      simp only [hne, if_false]
      unfold decPrefixLoop
      simp only [join_ne_dot h, if_false]
      rw [dirKey_join h hne, hdir, updirs_concat]
      simp only [searchList]
      rw [hrec]
      cases prefixes.get? (dirs (a ++ [s])) <;> rfl

theorem tidyKey_head {segs : List GoStr} {last : GoStr} (h : ∀ s ∈ segs, Tidy s) (hl : slash ∉ last) :
    (dirs segs ++ last).head? ≠ some slash := by
  have := dirs_head h
  cases hd : dirs segs with
  | nil =>
    cases last with
    | nil => simp
    | cons b bs => simp at hl ⊢; exact fun e => hl.1 e.symm
  | cons b bs => rw [hd] at this; simpa using this

theorem TidyKey.relative {k : GoStr} (h : TidyKey k) : Relative k := by
  obtain ⟨segs, last, h1, h2, rfl⟩ := h
  exact tidyKey_head h1 h2

theorem dirKey_rel {k : GoStr} (h : Relative k) : dirKey k = k ++ [slash] := by
  unfold dirKey
  cases k with
  | nil => rfl
  | cons b bs =>
    have : b ≠ slash := by simpa [Relative, slash] using h
    simp [this]

theorem dirs_length_ge {segs : List GoStr} : segs.length ≤ (dirs segs).length := by
  induction segs with
  | nil => simp
  | cons s segs ih => simp [dirs] at ih ⊢; omega

/-- On a tidy key the search looks at the key, the key with a slash, and the directories, innermost first (for the key "."
only at the key itself). -/
theorem decPrefix_tidy {frp : Bool} {prefixes : GMap GoStr Int} {segs : List GoStr} {last : GoStr}
    (h : ∀ s ∈ segs, Tidy s) (hl : slash ∉ last) :
    decPrefix frp prefixes (dirs segs ++ last) =
      match prefixes.get? (dirs segs ++ last) with
      | some v => if v > 0 then .ok (prefixes.insert (dirs segs ++ last) (v - 1), true)
                  else searchList frp prefixes (if dirs segs ++ last = dot then [] else (dirs segs ++ last ++ [slash]) :: updirs segs)
      | none => searchList frp prefixes (if dirs segs ++ last = dot then [] else (dirs segs ++ last ++ [slash]) :: updirs segs) := by
  have key : decPrefixLoop frp prefixes ((dirs segs ++ last).length + 2) (dirs segs ++ last) =
      searchList frp prefixes (if dirs segs ++ last = dot then [] else (dirs segs ++ last ++ [slash]) :: updirs segs) := by
    unfold decPrefixLoop
    by_cases hd : dirs segs ++ last = dot
    · simp [hd, searchList]
    · simp only [hd, if_false]
      rw [dirKey_rel (tidyKey_head h hl), dir_tidy h hl]
      have hf : segs.length + 1 ≤ (dirs segs ++ last).length + 1 := by
        have := @dirs_length_ge segs
        simp; omega
      rw [loop_join h hf]
      simp only [searchList]
      cases prefixes.get? (dirs segs ++ last ++ [slash]) <;> rfl
  unfold decPrefix
  rw [key]
  cases prefixes.get? (dirs segs ++ last) <;> rfl

/-- Everything looked up for a tidy key is the key or a prefix of the key followed by a slash. -/
theorem searchList_none {frp : Bool} {prefixes : GMap GoStr Int} {l : List GoStr} (h : ∀ x ∈ l, prefixes.get? x = none) :
    searchList frp prefixes l = .ok (prefixes, false) := by
  induction l with
  | nil => rfl
  | cons x l ih => simp [searchList, h x (by simp), ih (fun y hy => h y (by simp [hy]))]

theorem searchList_found {frp : Bool} {prefixes : GMap GoStr Int} {l : List GoStr} {pre : GoStr} {v : Int}
    (h : ∀ x ∈ l, x ≠ pre → prefixes.get? x = none) (hm : pre ∈ l) (hv : prefixes.get? pre = some v) (hpos : v > 0) :
    searchList frp prefixes l = .ok (prefixes.insert pre (v - 1), true) := by
  induction l with
  | nil => simp at hm
  | cons x l ih =>
    by_cases hx : x = pre
    · subst hx; simp [searchList, hv, hpos]
    · have : pre ∈ l := by rcases List.mem_cons.mp hm with e | e
                           · exact absurd e.symm hx
                           · exact e
      simp [searchList, h x (by simp) hx, ih (fun y hy => h y (by simp [hy])) this]

theorem first_slash {a b x y : GoStr} (ha : slash ∉ a) (hb : slash ∉ b) (h : a ++ slash :: x = b ++ slash :: y) :
    a = b ∧ x = y := by
  induction a generalizing b with
  | nil =>
    cases b with
    | nil => simpa using h
    | cons c b => simp at h hb; exact absurd h.1 hb.1
  | cons c a ih =>
    cases b with
    | nil => simp at h ha; exact absurd h.1.symm ha.1
    | cons d b =>
      simp only [List.cons_append, List.cons.injEq] at h
      simp only [List.mem_cons, not_or] at ha hb
      obtain ⟨h1, h2⟩ := ih ha.2 hb.2 h.2
      exact ⟨by rw [h.1, h1], h2⟩

theorem dirs_prefix {s1 segs : List GoStr} {rest last : GoStr} (h1 : ∀ s ∈ s1, Tidy s) (h2 : ∀ s ∈ segs, Tidy s)
    (hl : slash ∉ last) (h : dirs s1 ++ rest = dirs segs ++ last) : ∃ s2, segs = s1 ++ s2 := by
  induction s1 generalizing segs with
  | nil => exact ⟨segs, rfl⟩
  | cons s s1 ih =>
    have e1 : dirs (s :: s1) ++ rest = s ++ slash :: (dirs s1 ++ rest) := by simp [dirs, slash]
    cases segs with
    | nil =>
      rw [e1] at h
      exact absurd (by rw [show last = _ from h.symm]; simp) hl
    | cons t segs =>
      have e2 : dirs (t :: segs) ++ last = t ++ slash :: (dirs segs ++ last) := by simp [dirs, slash]
      rw [e1, e2] at h
      obtain ⟨rfl, h'⟩ := first_slash (h1 s (by simp)).2.2.2 (h2 t (by simp)).2.2.2 h
      obtain ⟨s2, rfl⟩ := ih (fun x hx => h1 x (by simp [hx])) (fun x hx => h2 x (by simp [hx])) h'
      exact ⟨s2, rfl⟩

/-- Every prefix looked up for a tidy key is a prefix of the key followed by a slash. -/
theorem candidate_prefix {segs : List GoStr} {last x : GoStr}
    (hx : x ∈ (if dirs segs ++ last = dot then [] else (dirs segs ++ last ++ [slash]) :: updirs segs)) :
    x <+: dirs segs ++ last ++ [slash] := by
  split at hx
  · simp at hx
  · rcases List.mem_cons.mp hx with rfl | hx
    · exact List.prefix_rfl
    · obtain ⟨s1, s2, -, rfl, rfl⟩ := mem_updirs.mp hx
      exact ⟨dirs s2 ++ last ++ [slash], by simp [dirs_append]⟩

/-- A counted prefix of a key is found if no other prefix of the key is in the table. -/
theorem decPrefix_hit {frp : Bool} {prefixes : GMap GoStr Int} {k pre : GoStr} {v : Int} (hk : TidyKey k)
    (hp : DirPrefix pre k) (hfree : ∀ x, x ≠ pre → x <+: k ++ [slash] → prefixes.get? x = none)
    (hv : prefixes.get? pre = some v) (hpos : v > 0) :
    decPrefix frp prefixes k = .ok (prefixes.insert pre (v - 1), true) := by
  obtain ⟨segs, last, h1, h2, rfl⟩ := hk
  rw [decPrefix_tidy h1 h2]
  rcases hp with rfl | ⟨s1, rest, hne, ht, rfl, he⟩
  · simp [hv, hpos]
  · obtain ⟨s2, rfl⟩ := dirs_prefix ht h1 h2 he.symm
    by_cases hkp : dirs s1 = dirs (s1 ++ s2) ++ last
    · rw [← hkp, hv]; simp [hpos]
    · have hnone : prefixes.get? (dirs (s1 ++ s2) ++ last) = none := hfree _ (Ne.symm hkp) ⟨[slash], rfl⟩
      rw [hnone]
      simp only []
      have hnd : dirs (s1 ++ s2) ++ last ≠ dot := by
        intro e
        have hm : slash ∈ dirs (s1 ++ s2) ++ last := by
          cases s1 with
          | nil => exact absurd rfl hne
          | cons a s1 => simp [dirs, slash]
        rw [e] at hm
        revert hm; decide
      refine searchList_found ?_ ?_ hv hpos
      · intro x hx hxp
        exact hfree x hxp (candidate_prefix hx)
      · rw [if_neg hnd]
        exact List.mem_cons_of_mem _ (mem_updirs.mpr ⟨s1, s2, hne, rfl, rfl⟩)

/-- A key none of whose prefixes is in the table is not matched. -/
theorem decPrefix_miss {frp : Bool} {prefixes : GMap GoStr Int} {k : GoStr} (hk : TidyKey k)
    (hfree : ∀ x, x <+: k ++ [slash] → prefixes.get? x = none) :
    decPrefix frp prefixes k = .ok (prefixes, false) := by
  obtain ⟨segs, last, h1, h2, rfl⟩ := hk
  rw [decPrefix_tidy h1 h2, hfree _ ⟨[slash], rfl⟩]
  exact searchList_none fun x hx => hfree x (candidate_prefix hx)

theorem DirPrefix.prefix {pre k : GoStr} (h : DirPrefix pre k) : pre <+: k := by
  rcases h with rfl | ⟨s, r, -, -, rfl, rfl⟩
  · exact List.prefix_rfl
  · exact ⟨r, rfl⟩

end Verif
