import Verif.Spec.Regexp
import Verif.Spec.Path
import Verif.Spec.Producer
/-! The search finds what the expression matches. -/
namespace Verif
open Spec

theorem runeWidth_pos (s : Bytes) : 1 ≤ runeWidth s := by
  unfold runeWidth
  cases s with
  | nil => simp [utf8Size]
  | cons b r =>
    simp only [utf8Size]
    repeat' split
    all_goals simp

theorem runeWidth_le {s : Bytes} (h : s ≠ []) : runeWidth s ≤ s.length := by
  unfold runeWidth
  cases s with
  | nil => exact absurd rfl h
  | cons b r =>
    simp only [utf8Size]
    repeat' split
    all_goals simp

theorem runeWidth_ascii {b : UInt8} {r : Bytes} (h : b < 128) : runeWidth (b :: r) = 1 := by
  have : b.toNat < 128 := UInt8.lt_iff_toNat_lt.mp h
  simp [runeWidth, utf8Size, this]

theorem takeRune_iff {p : UInt8 → Bool} {wide : Bool} {s r : Bytes} :
    r ∈ takeRune p wide s ↔ ∃ x, s = x ++ r ∧ ((∃ c, c < 128 ∧ p c = true ∧ x = [c]) ∨ (wide = true ∧ WideChar x r)) := by
  cases s with
  | nil =>
    simp only [takeRune, List.not_mem_nil, false_iff]
    rintro ⟨x, h, ⟨c, _, _, rfl⟩ | ⟨_, ⟨b, t, rfl, _⟩, _⟩⟩ <;> simp at h
  | cons b t =>
    simp only [takeRune]
    by_cases hb : b < 128
    · rw [if_pos hb]
      constructor
      · intro h
        by_cases hp : p b = true
        · rw [if_pos hp] at h
          cases List.mem_singleton.mp h
          exact ⟨[b], rfl, .inl ⟨b, hb, hp, rfl⟩⟩
        · rw [if_neg hp] at h; cases h
      · rintro ⟨x, h, ⟨c, _, hp, rfl⟩ | ⟨_, ⟨b', t', rfl, hb'⟩, _⟩⟩
        · simp only [List.cons_append, List.nil_append, List.cons.injEq] at h
          obtain ⟨rfl, rfl⟩ := h
          simp [hp]
        · simp only [List.cons_append, List.cons.injEq] at h
          obtain ⟨rfl, _⟩ := h
          exact absurd hb (UInt8.not_lt.mpr hb')
    · rw [if_neg hb]
      constructor
      · intro h
        by_cases hw : wide = true
        · rw [if_pos hw] at h
          cases List.mem_singleton.mp h
          have hle := runeWidth_le (s := b :: t) (by simp)
          have hpos := runeWidth_pos (b :: t)
          refine ⟨(b :: t).take (runeWidth (b :: t)), (List.take_append_drop _ _).symm, .inr ⟨hw, ?_, ?_⟩⟩
          · obtain ⟨n, hn⟩ : ∃ n, runeWidth (b :: t) = n + 1 := ⟨runeWidth (b :: t) - 1, by omega⟩
            exact ⟨b, t.take n, by rw [hn]; rfl, UInt8.not_lt.mp hb⟩
          · rw [List.take_append_drop, List.length_take]; omega
        · rw [if_neg hw] at h; cases h
      · rintro ⟨x, h, ⟨c, hc, _, rfl⟩ | ⟨hw, _, hl⟩⟩
        · simp only [List.cons_append, List.nil_append, List.cons.injEq] at h
          exact absurd (h.1 ▸ hc) hb
        · rw [if_pos hw, h, ← hl, List.drop_left]
          exact List.mem_singleton.mpr rfl

theorem isEmpty_len {x r : Bytes} : (r.length == (x ++ r).length) = x.isEmpty := by
  cases x with
  | nil => simp
  | cons b t => simp; omega

theorem starEnds_iff {a : Re} {g : Bool}
    (ih : ∀ st s r, r ∈ a.ends st s ↔ ∃ x, s = x ++ r ∧ Matches a st x r) :
    ∀ n st s r, s.length ≤ n → (r ∈ starEnds a.ends g n st s ↔ ∃ x, s = x ++ r ∧ Matches (.star g a) st x r) := by
  have hnil : ∀ {st : Bool} {x r : Bytes}, Matches (.star g a) st x r → ∀ n, (x ++ r).length ≤ n → r ∈ starEnds a.ends g n st (x ++ r) := by
    intro st x r h
    generalize hre : Re.star g a = re at h
    induction h with
    | starNil =>
      rename_i g' a' st r
      intro n hn
      cases n with
      | zero => simp [starEnds]
      | succ n => simp only [starEnds]; split <;> simp
    | @starCons g' a' st x y r h1 h2 _ ih2 =>
      cases hre
      intro n hn
      cases x with
      | nil => simpa using ih2 rfl n (by simpa using hn)
      | cons b t =>
        cases n with
        | zero => simp at hn
        | succ n =>
          have hm : r ∈ (a.ends st (b :: t ++ y ++ r)).flatMap
              (fun r' => if r'.length < (b :: t ++ y ++ r).length then starEnds a.ends g n false r' else []) := by
            refine List.mem_flatMap.mpr ⟨y ++ r, (ih _ _ _).mpr ⟨b :: t, by simp, h1⟩, ?_⟩
            rw [if_pos (by simp; omega)]
            have := ih2 rfl n (by simp at hn ⊢; omega)
            simpa using this
          simp only [starEnds]
          split
          · exact List.mem_append_left _ hm
          · exact List.mem_cons_of_mem _ hm
    | _ => cases hre
  intro n
  induction n with
  | zero =>
    intro st s r hn
    have : s = [] := List.length_eq_zero_iff.mp (Nat.le_zero.mp hn)
    subst this
    constructor
    · intro h
      simp only [starEnds, List.mem_singleton] at h
      subst h
      exact ⟨[], rfl, .starNil⟩
    · rintro ⟨x, hx, h⟩
      rw [hx]
      exact hnil h 0 (by rw [← hx]; exact hn)
  | succ n ihn =>
    intro st s r hn
    constructor
    · intro h
      have h' : r = s ∨ r ∈ (a.ends st s).flatMap
          (fun r' => if r'.length < s.length then starEnds a.ends g n false r' else []) := by
        simp only [starEnds] at h
        split at h
        · rcases List.mem_append.mp h with h | h
          · exact .inr h
          · exact .inl (List.mem_singleton.mp h)
        · rcases List.mem_cons.mp h with h | h
          · exact .inl h
          · exact .inr h
      rcases h' with rfl | h'
      · exact ⟨[], rfl, .starNil⟩
      · obtain ⟨r', hr', hq⟩ := List.mem_flatMap.mp h'
        split at hq
        · rename_i hlt
          obtain ⟨x, rfl, hx⟩ := (ih _ _ _).mp hr'
          obtain ⟨y, rfl, hy⟩ := (ihn false r' r (by omega)).mp hq
          have hxe : x.isEmpty = false := by
            cases x with
            | nil => simp at hlt
            | cons => rfl
          exact ⟨x ++ y, by simp, .starCons hx (by simpa [hxe] using hy)⟩
        · cases hq
    · rintro ⟨x, rfl, h⟩
      exact hnil h _ hn

/-- The search tree has exactly the matches. -/
theorem ends_iff (re : Re) : ∀ st s r, r ∈ re.ends st s ↔ ∃ x, s = x ++ r ∧ Matches re st x r := by
  induction re with
  | empty =>
    intro st s r
    simp only [Re.ends, List.mem_singleton]
    constructor
    · rintro rfl; exact ⟨[], rfl, .empty⟩
    · rintro ⟨x, rfl, h⟩; cases h; rfl
  | byte b =>
    intro st s r
    constructor
    · intro h
      cases s with
      | nil => cases h
      | cons c t =>
        simp only [Re.ends] at h
        split at h
        · rename_i hc; subst hc
          cases List.mem_singleton.mp h
          exact ⟨[c], rfl, .byte⟩
        · cases h
    · rintro ⟨x, rfl, h⟩; cases h; simp [Re.ends]
  | cls neg ranges =>
    intro st s r
    have hr : ∀ c, (inRanges ranges c != neg) = true ↔ ((∃ p ∈ ranges, p.1 ≤ c ∧ c ≤ p.2) ↔ neg = false) := by
      intro c
      have : inRanges ranges c = true ↔ ∃ p ∈ ranges, p.1 ≤ c ∧ c ≤ p.2 := by simp [inRanges]
      rw [← this]
      cases inRanges ranges c <;> cases neg <;> simp
    simp only [Re.ends, takeRune_iff]
    constructor
    · rintro ⟨x, hs, ⟨c, hc, hp, rfl⟩ | ⟨rfl, hw⟩⟩
      · exact ⟨_, hs, .cls hc ((hr c).mp hp)⟩
      · exact ⟨_, hs, .clsWide hw⟩
    · rintro ⟨x, hs, h⟩
      cases h with
      | cls hc h => exact ⟨_, hs, .inl ⟨_, hc, (hr _).mpr h, rfl⟩⟩
      | clsWide hw => exact ⟨_, hs, .inr ⟨rfl, hw⟩⟩
  | any =>
    intro st s r
    simp only [Re.ends, takeRune_iff]
    constructor
    · rintro ⟨x, hs, ⟨c, hc, hp, rfl⟩ | ⟨_, hw⟩⟩
      · exact ⟨_, hs, .any hc (by simpa using hp)⟩
      · exact ⟨_, hs, .anyWide hw⟩
    · rintro ⟨x, hs, h⟩
      cases h with
      | any hc h => exact ⟨_, hs, .inl ⟨_, hc, by simpa using h, rfl⟩⟩
      | anyWide hw => exact ⟨_, hs, .inr ⟨trivial, hw⟩⟩
  | bol =>
    intro st s r
    simp only [Re.ends]
    constructor
    · intro h
      split at h
      · rename_i hst; subst hst
        cases List.mem_singleton.mp h
        exact ⟨[], rfl, .bol⟩
      · cases h
    · rintro ⟨x, rfl, h⟩; cases h; simp
  | eol =>
    intro st s r
    simp only [Re.ends]
    constructor
    · intro h
      split at h
      · rename_i hs; subst hs
        cases List.mem_singleton.mp h
        exact ⟨[], rfl, .eol⟩
      · cases h
    · rintro ⟨x, rfl, h⟩; cases h; simp
  | cat a b iha ihb =>
    intro st s r
    simp only [Re.ends, List.mem_flatMap]
    constructor
    · rintro ⟨r', h1, h2⟩
      obtain ⟨x, rfl, hx⟩ := (iha _ _ _).mp h1
      obtain ⟨y, rfl, hy⟩ := (ihb _ _ _).mp h2
      rw [isEmpty_len] at hy
      exact ⟨x ++ y, by simp, .cat hx hy⟩
    · rintro ⟨x, rfl, h⟩
      cases h with
      | cat h1 h2 =>
        rename_i x y
        refine ⟨y ++ r, (iha _ _ _).mpr ⟨x, by simp, h1⟩, (ihb _ _ _).mpr ⟨y, rfl, ?_⟩⟩
        rw [List.append_assoc, isEmpty_len]
        exact h2
  | alt a b iha ihb =>
    intro st s r
    simp only [Re.ends, List.mem_append, iha, ihb]
    constructor
    · rintro (⟨x, hs, h⟩ | ⟨x, hs, h⟩)
      · exact ⟨x, hs, .altL h⟩
      · exact ⟨x, hs, .altR h⟩
    · rintro ⟨x, hs, h⟩
      cases h with
      | altL h => exact .inl ⟨x, hs, h⟩
      | altR h => exact .inr ⟨x, hs, h⟩
  | star g a iha =>
    intro st s r
    exact starEnds_iff iha _ _ _ _ (Nat.le_refl _)
  | quest g a iha =>
    intro st s r
    have : r ∈ (Re.quest g a).ends st s ↔ r ∈ a.ends st s ∨ r = s := by
      simp only [Re.ends]
      split <;> simp [or_comm]
    rw [this, iha]
    constructor
    · rintro (⟨x, hs, h⟩ | rfl)
      · exact ⟨x, hs, .questSome h⟩
      · exact ⟨[], rfl, .questNil⟩
    · rintro ⟨x, rfl, h⟩
      cases h with
      | questNil => exact .inr rfl
      | questSome h => exact .inl ⟨x, rfl, h⟩

/-- Nothing at the positions before: no match begins at `l'` shorter than `l`. -/
theorem findFrom_spec (re : Re) : ∀ n st s, s.length ≤ n →
    (∀ x, re.findFrom n st s = some x → ∃ l r, s = l ++ (x ++ r) ∧ WholeChars l (x ++ r) ∧ Matches re (st && l.isEmpty) x r ∧
      ∀ l' x' r', s = l' ++ (x' ++ r') → WholeChars l' (x' ++ r') → l'.length < l.length → ¬ Matches re (st && l'.isEmpty) x' r') ∧
    (re.findFrom n st s = none → ∀ l x r, s = l ++ (x ++ r) → WholeChars l (x ++ r) → ¬ Matches re (st && l.isEmpty) x r) := by
  intro n
  induction n with
  | zero =>
    intro st s hn
    have : s = [] := List.length_eq_zero_iff.mp (Nat.le_zero.mp hn)
    subst this
    cases he : re.ends st [] with
    | nil =>
      refine ⟨?_, ?_⟩
      · intro x h; simp [Re.findFrom, he] at h
      · intro _ l x r hs _ hm
        have h0 : l = [] ∧ x = [] ∧ r = [] := by simpa using hs
        obtain ⟨rfl, rfl, rfl⟩ := h0
        have := (ends_iff re st [] []).mpr ⟨[], rfl, by simpa using hm⟩
        rw [he] at this; cases this
    | cons r rs =>
      refine ⟨?_, ?_⟩
      · intro x h
        have hr : r ∈ re.ends st [] := by rw [he]; exact List.mem_cons_self
        obtain ⟨y, hy, hm⟩ := (ends_iff re st [] r).mp hr
        have h0 : y = [] ∧ r = [] := by simpa using hy
        obtain ⟨rfl, rfl⟩ := h0
        simp [Re.findFrom, he] at h
        subst h
        exact ⟨[], [], rfl, .nil, by simpa using hm, by intro l' x' r' _ _ hl; simp at hl⟩
      · intro h; simp [Re.findFrom, he] at h
  | succ n ih =>
    intro st s hn
    cases he : re.ends st s with
    | cons r rs =>
      have hr : r ∈ re.ends st s := by rw [he]; exact List.mem_cons_self
      obtain ⟨y, hy, hm⟩ := (ends_iff re st s r).mp hr
      refine ⟨?_, ?_⟩
      · intro x h
        have hx : x = y := by
          simp only [Re.findFrom, he, Option.some.injEq] at h
          rw [← h, hy]; simp
        subst hx
        exact ⟨[], r, by simpa using hy, .nil, by simpa using hm, by intro l' x' r' _ _ hl; simp at hl⟩
      · intro h; simp [Re.findFrom, he] at h
    | nil =>
      have hno : ∀ x r, s = x ++ r → ¬ Matches re st x r := by
        intro x r hs hm
        have := (ends_iff re st s r).mpr ⟨x, hs, hm⟩
        rw [he] at this; cases this
      cases s with
      | nil =>
        refine ⟨?_, ?_⟩
        · intro x h; simp [Re.findFrom, he] at h
        · intro _ l x r hs _ hm
          have h0 : l = [] ∧ x = [] ∧ r = [] := by simpa using hs
          obtain ⟨rfl, rfl, rfl⟩ := h0
          exact hno [] [] rfl (by simpa using hm)
      | cons b t =>
        have hle := runeWidth_le (s := b :: t) (by simp)
        have hpos := runeWidth_pos (b :: t)
        have hstep : re.findFrom (n + 1) st (b :: t) = re.findFrom n false ((b :: t).drop (runeWidth (b :: t))) := by
          simp [Re.findFrom, he]
        have ih' := ih false ((b :: t).drop (runeWidth (b :: t))) (by
          rw [List.length_drop]; simp only [List.length_cons] at hn ⊢; omega)
        have hsplit : b :: t = (b :: t).take (runeWidth (b :: t)) ++ (b :: t).drop (runeWidth (b :: t)) :=
          (List.take_append_drop _ _).symm
        have htl : ((b :: t).take (runeWidth (b :: t))).length = runeWidth (b :: t) := by rw [List.length_take]; omega
        have hne : (b :: t).take (runeWidth (b :: t)) ≠ [] := by
          intro h; rw [h] at htl; simp at htl; omega
        -- a position after the first character
        have hback : ∀ l x r, b :: t = l ++ (x ++ r) → WholeChars l (x ++ r) → l ≠ [] →
            ∃ l2, l = (b :: t).take (runeWidth (b :: t)) ++ l2 ∧ (b :: t).drop (runeWidth (b :: t)) = l2 ++ (x ++ r) ∧
              WholeChars l2 (x ++ r) := by
          intro l x r hs hw hl
          cases hw with
          | nil => exact absurd rfl hl
          | cons hx hlen hl2 =>
            rename_i y l2
            have hs' : b :: t = y ++ (l2 ++ (x ++ r)) := by rw [hs]; simp
            rw [← hs'] at hlen
            refine ⟨l2, ?_, ?_, hl2⟩
            · rw [← hlen, hs', List.take_left]
            · rw [← hlen, hs', List.drop_left]
        rw [hstep]
        refine ⟨?_, ?_⟩
        · intro x h
          obtain ⟨l, r, hs, hw, hm, hleft⟩ := ih'.1 x h
          refine ⟨(b :: t).take (runeWidth (b :: t)) ++ l, r, ?_, ?_, ?_, ?_⟩
          · rw [List.append_assoc, ← hs]; exact hsplit
          · refine .cons hne ?_ hw
            rw [← hs, ← hsplit, htl]
          · have : ((b :: t).take (runeWidth (b :: t)) ++ l).isEmpty = false := by
              cases h' : (b :: t).take (runeWidth (b :: t)) with
              | nil => exact absurd h' hne
              | cons => rfl
            rw [this]; simpa using hm
          · intro l' x' r' hs' hw' hlt
            by_cases hl' : l' = []
            · subst hl'
              simpa using hno x' r' (by simpa using hs')
            · obtain ⟨l2, rfl, hd, hw2⟩ := hback l' x' r' hs' hw' hl'
              have := hleft l2 x' r' hd hw2 (by simpa using hlt)
              have he' : ((b :: t).take (runeWidth (b :: t)) ++ l2).isEmpty = false := by
                cases h' : (b :: t).take (runeWidth (b :: t)) with
                | nil => exact absurd h' hne
                | cons => rfl
              rw [he']; simpa using this
        · intro h l x r hs hw
          by_cases hl : l = []
          · subst hl
            simpa using hno x r (by simpa using hs)
          · obtain ⟨l2, rfl, hd, hw2⟩ := hback l x r hs hw hl
            have := ih'.2 h l2 x r hd hw2
            have he' : ((b :: t).take (runeWidth (b :: t)) ++ l2).isEmpty = false := by
              cases h' : (b :: t).take (runeWidth (b :: t)) with
              | nil => exact absurd h' hne
              | cons => rfl
            rw [he']; simpa using this

/-! ## Shapes of expressions -/

theorem utf8Size_cont {b : UInt8} {u : Bytes} {n : Nat} (h : utf8Size (b :: u) = some n) : ∀ c ∈ u.take (n - 1), 128 ≤ c.toNat := by
  simp only [utf8Size] at h
  by_cases h1 : b.toNat < 0x80
  · rw [if_pos h1] at h; cases h; simp
  rw [if_neg h1] at h
  by_cases h2 : b.toNat < 0xC2
  · rw [if_pos h2] at h; cases h
  rw [if_neg h2] at h
  by_cases h3 : b.toNat < 0xE0
  · rw [if_pos h3] at h
    match u, h with
    | c :: t, h =>
      simp only at h
      split at h
      · rename_i hc
        cases h
        simp only [utf8Accept, Bool.and_eq_true, decide_eq_true_eq] at hc
        simpa using hc.1
      · cases h
  rw [if_neg h3] at h
  by_cases h4 : b.toNat < 0xF0
  · rw [if_pos h4] at h
    match u, h with
    | c :: d :: t, h =>
      have hlo : 128 ≤ (if b.toNat = 0xE0 then 0xA0 else 0x80) := by split <;> omega
      simp only at h
      generalize (if b.toNat = 0xE0 then 0xA0 else 0x80) = lo at h hlo
      generalize (if b.toNat = 0xED then 0x9F else 0xBF) = hi at h
      split at h
      · rename_i hc
        cases h
        simp only [utf8Accept, Bool.and_eq_true, decide_eq_true_eq] at hc
        have : 128 ≤ c.toNat := by have := hc.1.1; omega
        simp [this, hc.2.1]
      · cases h
  rw [if_neg h4] at h
  by_cases h5 : b.toNat < 0xF5
  · rw [if_pos h5] at h
    match u, h with
    | c :: d :: e :: t, h =>
      have hlo : 128 ≤ (if b.toNat = 0xF0 then 0x90 else 0x80) := by split <;> omega
      simp only at h
      generalize (if b.toNat = 0xF0 then 0x90 else 0x80) = lo at h hlo
      generalize (if b.toNat = 0xF4 then 0x8F else 0xBF) = hi at h
      split at h
      · rename_i hc
        cases h
        simp only [utf8Accept, Bool.and_eq_true, decide_eq_true_eq] at hc
        have : 128 ≤ c.toNat := by have := hc.1.1.1; omega
        simp [this, hc.2.1, hc.1.2.1]
      · cases h
  · rw [if_neg h5] at h; cases h

/-- The bytes of a character that is not ASCII are not ASCII. -/
theorem wide_high {x r : Bytes} (h : WideChar x r) : ∀ c ∈ x, 128 ≤ c.toNat := by
  obtain ⟨⟨b, t, rfl, hb⟩, hl⟩ := h
  have hb' : 128 ≤ b.toNat := UInt8.le_iff_toNat_le.mp hb
  intro c hc
  rcases List.mem_cons.mp hc with rfl | hc
  · exact hb'
  · simp only [List.cons_append, runeWidth] at hl
    cases hu : utf8Size (b :: (t ++ r)) with
    | none =>
      rw [hu] at hl
      have : t = [] := by simpa using hl
      subst this; cases hc
    | some n =>
      rw [hu] at hl
      simp only [List.length_cons, Option.getD_some] at hl
      refine utf8Size_cont hu c ?_
      rw [← hl]
      simpa using hc

theorem wide_no_slash {x r : Bytes} (h : WideChar x r) : (47 : UInt8) ∉ x := by
  intro hm
  have := wide_high h _ hm
  simp at this

theorem rooted_of {re : Re} {st : Bool} {x r : Bytes} (h : Matches re st x r) : rootedCheck re = true → st = true := by
  induction h with
  | bol => intro _; rfl
  | cat h1 h2 ih1 ih2 => intro h; exact ih1 h
  | altL h ih => intro hc; simp only [rootedCheck, Bool.and_eq_true] at hc; exact ih hc.1
  | altR h ih => intro hc; simp only [rootedCheck, Bool.and_eq_true] at hc; exact ih hc.2
  | _ => intro h; simp [rootedCheck] at h

theorem slash_of {re : Re} {st : Bool} {x r : Bytes} (h : Matches re st x r) : slashCheck re = true → ∃ y, x = y ++ [47] := by
  induction h with
  | byte => intro h; simp only [slashCheck, beq_iff_eq] at h; subst h; exact ⟨[], rfl⟩
  | @cat a b st x y r h1 h2 ih1 ih2 =>
    intro h
    obtain ⟨z, rfl⟩ := ih2 h
    exact ⟨x ++ z, by simp⟩
  | altL h ih => intro hc; simp only [slashCheck, Bool.and_eq_true] at hc; exact ih hc.1
  | altR h ih => intro hc; simp only [slashCheck, Bool.and_eq_true] at hc; exact ih hc.2
  | _ => intro h; simp [slashCheck] at h

theorem count_of {re : Re} {st : Bool} {x r : Bytes} (h : Matches re st x r) : ∀ n, slashCount re = some n → x.count 47 = n := by
  have wide : ∀ {x r : Bytes}, WideChar x r → x.count 47 = 0 := fun h => List.count_eq_zero.mpr (wide_no_slash h)
  induction h with
  | empty => intro n h; simpa [slashCount] using h
  | bol => intro n h; simpa [slashCount] using h
  | eol => intro n h; simpa [slashCount] using h
  | byte =>
    rename_i b st r
    intro n h
    simp only [slashCount, Option.some.injEq] at h
    subst h
    by_cases hb : b = 47
    · subst hb; rfl
    · simp [hb]
  | @cls neg ranges st c r hc h =>
    intro n hn
    simp only [slashCount] at hn
    split at hn
    · rename_i h47
      cases hn
      have : c ≠ 47 := by
        rintro rfl
        have hr : inRanges ranges 47 = true ↔ ∃ p ∈ ranges, p.1 ≤ 47 ∧ (47 : UInt8) ≤ p.2 := by simp [inRanges]
        rw [← hr, h47] at h
        cases neg <;> simp at h
      simp [this]
    · cases hn
  | @clsWide ranges st x r h =>
    intro n hn
    simp only [slashCount] at hn
    split at hn
    · cases hn; exact wide h
    · cases hn
  | any => intro n h; simp [slashCount] at h
  | anyWide => intro n h; simp [slashCount] at h
  | cat h1 h2 ih1 ih2 =>
    intro n hn
    simp only [slashCount] at hn
    split at hn
    · rename_i n1 n2 e1 e2
      cases hn
      rw [List.count_append, ih1 _ e1, ih2 _ e2]
    · cases hn
  | altL h ih =>
    intro n hn
    simp only [slashCount] at hn
    split at hn
    · rename_i n1 n2 e1 e2
      split at hn
      · cases hn; exact ih _ e1
      · cases hn
    · cases hn
  | altR h ih =>
    intro n hn
    simp only [slashCount] at hn
    split at hn
    · rename_i n1 n2 e1 e2
      split at hn
      · rename_i he; cases hn; exact ih _ (by rw [e2, he])
      · cases hn
    · cases hn
  | starNil => intro n hn; simp only [slashCount] at hn; split at hn <;> cases hn; rfl
  | starCons h1 h2 ih1 ih2 =>
    intro n hn
    have hn' := hn
    simp only [slashCount] at hn
    split at hn
    · rename_i h0
      rw [List.count_append, ih1 _ h0, ih2 _ hn']; omega
    · cases hn
  | questNil => intro n hn; simp only [slashCount] at hn; split at hn <;> cases hn; rfl
  | questSome h ih =>
    intro n hn
    simp only [slashCount] at hn
    split at hn
    · rename_i h0; cases hn; exact ih _ h0
    · cases hn

theorem literal_of {re : Re} {st : Bool} {x r : Bytes} (h : Matches re st x r) : ∀ y, literalOf re = some y → x = y := by
  induction h with
  | empty => intro y h; simpa [literalOf] using h
  | bol => intro y h; simpa [literalOf] using h
  | byte => intro y h; simpa [literalOf] using h
  | cat h1 h2 ih1 ih2 =>
    intro y hy
    simp only [literalOf] at hy
    split at hy
    · rename_i e1 e2; cases hy; rw [ih1 _ e1, ih2 _ e2]
    · cases hy
  | _ => intro y h; simp [literalOf] at h

theorem lead_of {re : Re} {st : Bool} {x r : Bytes} (h : Matches re st x r) : leadOf re <+: x := by
  induction h with
  | byte => exact List.prefix_rfl
  | @cat a b st x y r h1 h2 ih1 ih2 =>
    simp only [leadOf]
    split
    · rename_i e; rw [← literal_of h1 _ e]; exact (List.prefix_append_right_inj _).mpr ih2
    · exact ih1.trans (List.prefix_append _ _)
  | _ => exact List.nil_prefix

theorem dirPattern_of {re : Re} (h : dirCheck re = true) : DirPattern re := by
  simp only [dirCheck, Bool.and_eq_true] at h
  obtain ⟨n, hn⟩ := Option.isSome_iff_exists.mp h.2
  exact ⟨fun hm => rooted_of hm h.1.1, fun hm => slash_of hm h.1.2, n, fun hm => count_of hm n hn⟩

theorem apart_of {re re' : Re} (h : apartCheck re re' = true) : Apart re re' := by
  simp only [apartCheck, Bool.and_eq_true, Bool.not_eq_true', ← Bool.not_eq_true, List.isPrefixOf_iff_prefix] at h
  intro st x r st' x' r' h1 h2
  have key : ∀ {a b x : Bytes}, a <+: x → b <+: x → a <+: b ∨ b <+: a := fun h h' => List.prefix_or_prefix_of_prefix h h'
  constructor
  · intro hp
    rcases key ((lead_of h1).trans hp) (lead_of h2) with h' | h'
    · exact h.1 h'
    · exact h.2 h'
  · intro hp
    rcases key (lead_of h1) ((lead_of h2).trans hp) with h' | h'
    · exact h.1 h'
    · exact h.2 h'

/-! ## The match of a directory pattern -/

/-- What `FindString` returns, if it is not empty, is a match. -/
theorem findString_match {re : Re} {k : GoStr} (h : re.findString k ≠ []) : ∃ l r, MatchAt re k l (re.findString k) r := by
  unfold Re.findString at h ⊢
  cases hf : re.findFrom k.length true k with
  | none => rw [hf] at h; exact absurd rfl h
  | some x =>
    obtain ⟨l, r, h1, h2, h3, _⟩ := (findFrom_spec re k.length true k (Nat.le_refl _)).1 x hf
    exact ⟨l, r, h1, h2, by simpa using h3⟩

theorem find_rooted {re : Re} (hr : ∀ {st x r}, Matches re st x r → st = true) {k : GoStr} (h : re.findString k ≠ []) :
    ∃ r, k = re.findString k ++ r ∧ Matches re true (re.findString k) r := by
  obtain ⟨l, r, h1, h2, h3⟩ := findString_match h
  have hl : l.isEmpty = true := hr h3
  rw [List.isEmpty_iff] at hl
  subst hl
  exact ⟨r, by simpa using h1, h3⟩

/-- Two matches at the same depth, one beginning with the other. -/
theorem dir_same {re : Re} (hd : DirPattern re) {st st' : Bool} {x r x' r' : Bytes} (h : Matches re st x r) (h' : Matches re st' x' r')
    (hp : x <+: x') : x = x' := by
  obtain ⟨z, rfl⟩ := hp
  obtain ⟨n, hn⟩ := hd.depth
  have e1 := hn h
  have e2 := hn h'
  rw [List.count_append] at e2
  have hz : (47 : UInt8) ∉ z := List.count_eq_zero.mp (by omega)
  obtain ⟨y, hy⟩ := hd.slash h'
  rcases List.eq_nil_or_concat z with rfl | ⟨z', b, rfl⟩
  · simp
  · rw [List.concat_eq_append, ← List.append_assoc] at hy
    have := (List.append_inj' hy rfl).2
    simp only [List.cons.injEq, and_true] at this
    exact absurd (by simp [this]) hz

/-- A directory pattern has at most one match in a text, and `FindString` finds it. -/
theorem dir_find {re : Re} (hd : DirPattern re) {k x : GoStr} : (re.findString k = x ∧ x ≠ []) ↔ ∃ r, k = x ++ r ∧ Matches re true x r := by
  constructor
  · rintro ⟨rfl, h⟩
    exact find_rooted hd.rooted h
  · rintro ⟨r, hk, hm⟩
    have hx : x ≠ [] := by obtain ⟨y, rfl⟩ := hd.slash hm; simp
    have hne : re.findString k ≠ [] := by
      intro h0
      unfold Re.findString at h0
      cases hf : re.findFrom k.length true k with
      | none => exact (findFrom_spec re k.length true k (Nat.le_refl _)).2 hf [] x r (by simpa using hk) .nil (by simpa using hm)
      | some y =>
        obtain ⟨l, r', h1, _, h3, _⟩ := (findFrom_spec re k.length true k (Nat.le_refl _)).1 y hf
        rw [hf] at h0
        simp only [Option.getD_some] at h0
        obtain ⟨z, hz⟩ := hd.slash h3
        rw [h0] at hz
        simp at hz
    obtain ⟨r', hk', hm'⟩ := find_rooted hd.rooted hne
    refine ⟨?_, hx⟩
    rcases List.prefix_or_prefix_of_prefix (l₁ := re.findString k) (l₂ := x) (l₃ := k) ⟨r', hk'.symm⟩ ⟨r, hk.symm⟩ with h | h
    · exact dir_same hd hm' hm h
    · exact (dir_same hd hm hm' h).symm

/-- A beginning of an ordinary key that ends in a slash is one of its directories. -/
theorem dirPrefix_of_slash {k x : GoStr} (hk : TidyKey k) (hp : x <+: k) (hx : ∃ y, x = y ++ [47]) : DirPrefix x k := by
  obtain ⟨segs, last, hs, hl, rfl⟩ := hk
  have key : ∀ segs : List GoStr, (∀ s ∈ segs, Tidy s) → ∀ x : GoStr, x <+: dirs segs ++ last → (∃ y, x = y ++ [47]) →
      ∃ pre post, segs = pre ++ post ∧ pre ≠ [] ∧ x = dirs pre := by
    intro segs
    induction segs with
    | nil =>
      intro _ x hp ⟨y, hy⟩
      exact absurd (hp.subset (by rw [hy]; simp)) hl
    | cons s segs ih =>
      intro hs x hp hx
      have hsplit : dirs (s :: segs) ++ last = (s ++ [47]) ++ (dirs segs ++ last) := by simp [dirs]
      rw [hsplit] at hp
      have hns := (hs s List.mem_cons_self).2.2.2
      rcases List.prefix_or_prefix_of_prefix hp (List.prefix_append (s ++ [47]) (dirs segs ++ last)) with h | ⟨z, hz⟩
      · obtain ⟨y, rfl⟩ := hx
        obtain ⟨w, hw⟩ := h
        rcases List.eq_nil_or_concat w with rfl | ⟨w', b, rfl⟩
        · refine ⟨[s], segs, rfl, by simp, ?_⟩
          simpa [dirs] using hw
        · rw [List.concat_eq_append, ← List.append_assoc] at hw
          have := (List.append_inj' hw rfl).1
          exact absurd (by rw [← this]; simp) hns
      · subst hz
        rw [List.prefix_append_right_inj] at hp
        rcases List.eq_nil_or_concat z with rfl | ⟨z', b, rfl⟩
        · exact ⟨[s], segs, rfl, by simp, by simp [dirs]⟩
        · obtain ⟨y, hy⟩ := hx
          rw [List.concat_eq_append, ← List.append_assoc] at hy
          have hb := (List.append_inj' hy rfl).2
          simp only [List.cons.injEq, and_true] at hb
          obtain ⟨pre, post, h1, h2, h3⟩ := ih (fun t ht => hs t (List.mem_cons_of_mem _ ht)) _ hp ⟨z', by simp [hb]⟩
          exact ⟨s :: pre, post, by rw [h1]; rfl, by simp, by rw [h3]; simp [dirs]⟩
  obtain ⟨pre, post, rfl, hne, rfl⟩ := key segs hs x hp hx
  refine .inr ⟨pre, dirs post ++ last, hne, fun s h => hs s (List.mem_append_left _ h), rfl, by simp [dirs]⟩

end Verif
