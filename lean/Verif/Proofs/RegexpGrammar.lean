import Verif.Proofs.RegexpParse
import Verif.Spec.RegexpGrammar
/-! The parser reads exactly the grammar. -/
namespace Verif
open Spec

theorem isAlnum_iff {b : UInt8} : isAlnum b = true ↔ LetterOrDigit b := by
  unfold isAlnum LetterOrDigit
  simp only [Bool.or_eq_true, Bool.and_eq_true, decide_eq_true_eq, or_assoc]

theorem escapable_iff {b : UInt8} : (isAlnum b || decide (128 ≤ b)) = false ↔ Escapable b := by
  rw [Bool.or_eq_false_iff, Escapable, decide_eq_false_iff_not, ← isAlnum_iff, Bool.not_eq_true, and_comm]
  simp only [UInt8.not_le]

/-! ## Classes -/

theorem classChar_sound {s : Bytes} {p : UInt8 × Bytes} (h : parseClassChar s = .ok p) : ∃ y, s = y ++ p.2 ∧ ClassChar y p.1 := by
  unfold parseClassChar at h
  split at h
  · cases h
  · cases h
  · rename_i c r
    split at h
    · cases h
    · rename_i hc
      cases h
      exact ⟨[92, c], rfl, .escaped (escapable_iff.mp (by simpa using hc))⟩
  · rename_i c r h1 h2
    split at h
    · cases h
    · rename_i hc
      cases h
      refine ⟨[c], rfl, .plain (by simpa [UInt8.not_le] using hc) fun h92 => ?_⟩
      subst h92
      cases r with
      | nil => exact h1 rfl rfl
      | cons d r => exact h2 d r rfl rfl

theorem ClassChar.parse {y : Bytes} {c : UInt8} (h : ClassChar y c) (r : Bytes) : parseClassChar (y ++ r) = .ok (c, r) := by
  cases h with
  | plain hb h92 =>
    have h128 : ¬ 128 ≤ c := UInt8.not_le.mpr hb
    unfold parseClassChar
    split
    · rename_i he; simp at he
    · rename_i he; simp at he; exact absurd he.1 h92
    · rename_i he; simp at he; exact absurd he.1 h92
    · rename_i he
      simp only [List.singleton_append, List.cons.injEq] at he
      obtain ⟨rfl, rfl⟩ := he
      rw [if_neg h128]
  | escaped hb =>
    have := escapable_iff.mpr hb
    simp only [List.cons_append, List.nil_append, parseClassChar, this, Bool.false_eq_true, if_false]

theorem ClassChar.ne_nil {y : Bytes} {c : UInt8} (h : ClassChar y c) : y ≠ [] := by
  cases h <;> simp

theorem ClassItems.ne_nil {f : Bool} {t : Bytes} {l : List (UInt8 × UInt8)} (h : ClassItems f t l) : t ≠ [] := by
  cases h with
  | close => simp
  | one hs => simp [ClassChar.ne_nil hs]
  | range hs => simp

/-- After a `-` something comes. -/
theorem ClassItems.dash {f : Bool} {t t' : Bytes} {l : List (UInt8 × UInt8)} (h : ClassItems f t l) (e : t = 45 :: t') : t' ≠ [] := by
  cases h with
  | close => simp at e
  | one hs h1 h2 h3 h =>
    cases hs with
    | plain _ _ => simp at e; rw [← e.2]; exact ClassItems.ne_nil h
    | escaped _ => simp at e
  | range hs h1 hs' =>
    cases hs with
    | plain _ _ => simp at e; rw [← e.2]; simp
    | escaped _ => simp at e

theorem class_sound : ∀ {n : Nat} {first : Bool} {acc : List (UInt8 × UInt8)} {s : Bytes} {p : List (UInt8 × UInt8) × Bytes},
    parseClass n first acc s = .ok p → ∃ y l, s = y ++ p.2 ∧ p.1 = acc ++ l ∧ ClassItems first y l := by
  intro n
  induction n with
  | zero => intro first acc s p h; cases h
  | succ n ih =>
    intro first acc s p h
    unfold parseClass at h
    split at h
    · cases h
    · cases h
    · rename_i c r hcol
      split at h
      · rename_i hc
        cases h
        simp at hc
        refine ⟨[93], [], by rw [hc.1]; rfl, by simp, ?_⟩
        rw [hc.2]
        exact .close
      · rename_i hc
        split at h
        · cases h
        · rename_i lo r1 h1
          obtain ⟨y1, e1, c1⟩ := classChar_sound h1
          simp only at e1 c1
          have hfirst : first = true ∨ y1 ≠ [93] := by
            cases first with
            | true => exact .inl rfl
            | false =>
              refine .inr fun h93 => hc ?_
              rw [h93] at e1
              simp only [List.singleton_append, List.cons.injEq] at e1
              simp [e1.1]
          have h58 : ∀ {t r'}, r1 = t ++ r' → y1 = [91] → t.head? ≠ some 58 := by
            intro t r' et h91 ht
            cases t with
            | nil => simp at ht
            | cons d t =>
              simp only [List.head?_cons, Option.some.injEq] at ht
              subst ht
              rw [h91, et] at e1
              simp only [List.cons_append, List.nil_append, List.cons.injEq] at e1
              exact hcol _ e1.1 e1.2
          split at h
          · rename_i d r2
            split at h
            · rename_i hd
              obtain ⟨y, l, e, el, hl⟩ := ih h
              refine ⟨y1 ++ y, (lo, lo) :: l, by rw [e1, e]; simp, by rw [el]; simp, .one c1 hfirst ?_ (h58 e) hl⟩
              intro d' t' et
              rw [et] at e
              simp only [List.cons_append, List.cons.injEq, true_and] at e
              rw [← e.1]
              exact hd
            · rename_i hd
              split at h
              · cases h
              · rename_i hi r3 h3
                obtain ⟨y3, e3, c3⟩ := classChar_sound h3
                simp only at e3 c3
                split at h
                · cases h
                · rename_i hle
                  obtain ⟨y, l, e, el, hl⟩ := ih h
                  refine ⟨y1 ++ 45 :: (y3 ++ y), (lo, hi) :: l, by rw [e1, e3, e]; simp, by rw [el]; simp,
                    .range c1 hfirst c3 (fun h93 => hd ?_) (UInt8.not_lt.mp hle) hl⟩
                  rw [h93] at e3
                  simp only [List.singleton_append, List.cons.injEq] at e3
                  exact e3.1
          · rename_i hno
            obtain ⟨y, l, e, el, hl⟩ := ih h
            refine ⟨y1 ++ y, (lo, lo) :: l, by rw [e1, e]; simp, by rw [el]; simp, .one c1 hfirst ?_ (h58 e) hl⟩
            intro d' t' et
            rw [et] at e
            exact absurd e (by simpa using hno d' (t' ++ p.2))

theorem ClassItems.parse {first : Bool} {t : Bytes} {l : List (UInt8 × UInt8)} (h : ClassItems first t l) :
    ∀ (n : Nat) (acc : List (UInt8 × UInt8)) (rest : Bytes), t.length ≤ n → parseClass n first acc (t ++ rest) = .ok (acc ++ l, rest) := by
  induction h with
  | close =>
    intro n acc rest hn
    cases n with
    | zero => simp at hn
    | succ n => simp [parseClass]
  | @one first s c t l hs h1 h2 h3 h ih =>
    intro n acc rest hn
    have hpos : 0 < s.length := List.length_pos_iff.mpr (ClassChar.ne_nil hs)
    cases n with
    | zero => rw [List.length_append] at hn; omega
    | succ n =>
      have hpc := ClassChar.parse hs (t ++ rest)
      have hih := ih n (acc ++ [(c, c)]) rest (by simp at hn; omega)
      rw [List.append_assoc]
      unfold parseClass
      split
      · rename_i he; simp [ClassChar.ne_nil hs] at he
      · rename_i r he
        exfalso
        cases hs with
        | plain _ _ =>
          simp only [List.singleton_append, List.cons.injEq] at he
          cases t with
          | nil => exact absurd rfl (ClassItems.ne_nil h)
          | cons d t =>
            simp only [List.cons_append, List.cons.injEq] at he
            exact h3 (by rw [he.1]) (by rw [he.2.1]; rfl)
        | escaped _ => simp at he
      · rename_i d r hcol he
        have hd : (d == 93 && !first) = false := by
          rcases h1 with rfl | h1
          · simp
          · cases hs with
            | plain _ _ =>
              simp only [List.singleton_append, List.cons.injEq] at he
              rw [← he.1]
              simp only [ne_eq, List.cons.injEq, and_true] at h1
              simp [h1]
            | escaped _ =>
              simp only [List.cons_append, List.cons.injEq] at he
              rw [← he.1]
              simp
        have hd' : (decide (d = 93) && !first) = false := by simpa using hd
        rw [hd', if_neg (by simp), hpc]
        simp only
        split
        · rename_i d2 r2 e2
          have : d2 = 93 := by
            cases t with
            | nil => exact absurd rfl (ClassItems.ne_nil h)
            | cons x t =>
              simp only [List.cons_append, List.cons.injEq] at e2
              have hne := ClassItems.dash h (t' := t) (by rw [e2.1])
              cases t with
              | nil => exact absurd rfl hne
              | cons z t =>
                simp only [List.cons_append, List.cons.injEq] at e2
                exact h2 d2 t (by rw [e2.1, e2.2.1])
          rw [if_pos this, hih]
          simp
        · rw [hih]; simp
  | @range first s lo s' hi t l hs h1 hs' h2 hle h ih =>
    intro n acc rest hn
    cases n with
    | zero => simp at hn
    | succ n =>
      have hpc := ClassChar.parse hs (45 :: (s' ++ (t ++ rest)))
      have hpc' := ClassChar.parse hs' (t ++ rest)
      have hih := ih n (acc ++ [(lo, hi)]) rest (by simp at hn; omega)
      have e0 : s ++ 45 :: (s' ++ t) ++ rest = s ++ (45 :: (s' ++ (t ++ rest))) := by simp
      rw [e0]
      unfold parseClass
      split
      · rename_i he; simp [ClassChar.ne_nil hs] at he
      · rename_i r he
        exfalso
        cases hs with
        | plain _ _ => simp at he
        | escaped _ => simp at he
      · rename_i d r hcol he
        have hd' : (decide (d = 93) && !first) = false := by
          rcases h1 with rfl | h1
          · simp
          · cases hs with
            | plain _ _ =>
              simp only [List.singleton_append, List.cons.injEq] at he
              rw [← he.1]
              simp only [ne_eq, List.cons.injEq, and_true] at h1
              simp [h1]
            | escaped _ =>
              simp only [List.cons_append, List.cons.injEq] at he
              rw [← he.1]
              simp
        rw [hd', if_neg (by simp), hpc]
        simp only
        cases hs' with
        | plain hb hne =>
          simp only [ne_eq, List.cons.injEq, and_true] at h2
          simp only [List.singleton_append] at hpc' ⊢
          simp only [if_neg h2, hpc', if_neg (UInt8.not_lt.mpr hle), hih]
          simp
        | escaped hb =>
          simp only [List.cons_append, List.nil_append] at hpc' ⊢
          simp only [if_neg (by decide : ¬ (92 : UInt8) = 93), hpc', if_neg (UInt8.not_lt.mpr hle), hih]
          simp

/-! ## Operands -/

theorem special_iff {b : UInt8} : Special b ↔ b = 40 ∨ b = 41 ∨ b = 124 ∨ b = 42 ∨ b = 43 ∨ b = 63 ∨ b = 123 ∨ b = 94 ∨ b = 36 ∨
    b = 46 ∨ b = 91 ∨ b = 92 := by
  have : str "()|*+?{^$.[\\" = [40, 41, 124, 42, 43, 63, 123, 94, 36, 46, 91, 92] := by decide +kernel
  rw [Special, this]
  simp

theorem atom_sound {s : Bytes} {p : Re × Bytes} (h : parseAtom s = .ok p)
    (hs : ∀ b, s.head? = some b → b ≠ 40 ∧ b ≠ 41 ∧ b ≠ 124) : ∃ y, y ≠ [] ∧ s = y ++ p.2 ∧ ReSays .atom y p.1 := by
  unfold parseAtom at h
  split at h
  any_goals cases h
  · exact ⟨[94], by simp, rfl, .bol⟩
  · exact ⟨[36], by simp, rfl, .eol⟩
  · exact ⟨[46], by simp, rfl, .any⟩
  · rename_i c r
    split at h
    · cases h
    · rename_i hc
      cases h
      exact ⟨[92, c], by simp, rfl, .escaped (escapable_iff.mp (by simpa using hc))⟩
  · rename_i r
    cases hc : parseClass (r.length + 1) true [] r with
    | error e => rw [hc] at h; cases h
    | ok q =>
      rw [hc] at h
      cases h
      obtain ⟨y, l, e, el, hl⟩ := class_sound hc
      simp only [List.nil_append] at el
      subst el
      exact ⟨91 :: 94 :: y, by simp, by simp [e], .ncls hl⟩
  · rename_i r hr
    cases hc : parseClass (r.length + 1) true [] r with
    | error e => rw [hc] at h; cases h
    | ok q =>
      rw [hc] at h
      cases h
      obtain ⟨y, l, e, el, hl⟩ := class_sound hc
      simp only [List.nil_append] at el
      subst el
      refine ⟨91 :: y, by simp, by simp [e], .cls hl fun h94 => ?_⟩
      cases y with
      | nil => simp at h94
      | cons d y =>
        simp only [List.head?_cons, Option.some.injEq] at h94
        subst h94
        exact hr (y ++ q.2) (by rw [e]; rfl)
  · rename_i c r n1 n2 n3 n4 n5 n6 n7 n8 n9 n10 n11
    split at h
    · cases h
    · rename_i hc
      cases h
      obtain ⟨s1, s2, s3⟩ := hs c rfl
      refine ⟨[c], by simp, rfl, .char (by simpa [UInt8.not_le] using hc) fun hsp => ?_⟩
      rcases special_iff.mp hsp with h | h | h | h | h | h | h | h | h | h | h | h
      · exact s1 h
      · exact s2 h
      · exact s3 h
      · exact n1 h
      · exact n2 h
      · exact n3 h
      · exact n4 h
      · exact n5 h
      · exact n6 h
      · exact n7 h
      · exact n11 h
      · cases r with
        | nil => exact n8 h rfl
        | cons d r => exact n9 d r h rfl

theorem isRepOp_iff {b : UInt8} : isRepOp b = true ↔ b = 42 ∨ b = 43 ∨ b = 63 := by
  simp [isRepOp, or_assoc]

theorem rep_sound {a : Re} {t s : Bytes} {p : Re × Bytes} (ht : ReSays .atom t a) (h : parseRep a s = .ok p) :
    ∃ y, s = y ++ p.2 ∧ ReSays .repetition (t ++ y) p.1 := by
  unfold parseRep at h
  split at h
  · cases h
    exact ⟨[], rfl, by rw [List.append_nil]; exact .once ht⟩
  · rename_i op r
    split at h
    · cases h
    split at h
    · cases h
      exact ⟨[], rfl, by rw [List.append_nil]; exact .once ht⟩
    rename_i hop
    have hop' : op = 42 ∨ op = 43 ∨ op = 63 := isRepOp_iff.mp (by simpa using hop)
    split at h
    · cases h
    rename_i hnull
    have hnull' : op ≠ 63 → a.nullable = false := by
      intro h63
      simpa [h63] using hnull
    have hq : r = lazyText (lazyMark r).1 ++ (lazyMark r).2 := by
      unfold lazyMark
      split
      · rename_i h63
        cases r with
        | nil => simp at h63
        | cons b t => simp only [List.head?_cons, Option.some.injEq] at h63; subst h63; rfl
      · rfl
    have hp : p = (mkRep op (lazyMark r).1 a, (lazyMark r).2) := by
      split at h
      · rename_i h0; cases h; rw [h0]
      · rename_i h0
        split at h
        · cases h
        · split at h
          · cases h
          · cases h; rfl
    subst hp
    refine ⟨op :: lazyText (lazyMark r).1, by simp only [List.cons_append]; rw [← hq], ?_⟩
    have e : t ++ op :: lazyText (lazyMark r).1 = t ++ [op] ++ lazyText (lazyMark r).1 := by simp
    rw [e]
    rcases hop' with rfl | rfl | rfl
    · exact .star _ ht (hnull' (by decide))
    · exact .plus _ ht (hnull' (by decide))
    · exact .quest _ ht

/-! ## Soundness -/

/-- Operands one after the other. -/
theorem cat_says : ∀ (ps : List (Bytes × Re)), (∀ p ∈ ps, p.1 ≠ [] ∧ ReSays .repetition p.1 p.2) →
    ReSays .sequence (ps.flatMap (·.1)) (mkCat (ps.map (·.2)).reverse)
  | [], _ => .nothing
  | [p], h => by simpa [mkCat] using ReSays.single (h p (by simp)).2
  | p :: q :: ps, h => by
    have ih := cat_says (q :: ps) (fun x hx => h x (List.mem_cons_of_mem _ hx))
    have hp := h p (by simp)
    have e : mkCat ((p :: q :: ps).map (·.2)).reverse = .cat p.2 (mkCat ((q :: ps).map (·.2)).reverse) := by
      rw [List.map_cons, List.reverse_cons, mkCat_snoc (by simp)]
    rw [e, List.flatMap_cons]
    refine .andThen hp.2 ?_ ih
    have := (h q (by simp)).1
    simp [this]

theorem mkAlt_snoc {a b : Re} {l : List Re} : mkAlt a (l ++ [b]) = .alt b (mkAlt a l) := by
  simp [mkAlt, List.foldl_append]

/-- Alternatives one after the other. -/
theorem alt_says {s : Bytes} {a : Re} (h0 : ReSays .sequence s a) : ∀ (qs : List (Bytes × Re)), (∀ q ∈ qs, ReSays .sequence q.1 q.2) →
    ReSays .alternation (qs.flatMap (fun q => q.1 ++ [124]) ++ s) (mkAlt a (qs.map (·.2)).reverse)
  | [], _ => .last h0
  | q :: qs, h => by
    have ih := alt_says h0 qs (fun x hx => h x (List.mem_cons_of_mem _ hx))
    have hq := h q (by simp)
    rw [List.map_cons, List.reverse_cons, mkAlt_snoc, List.flatMap_cons, List.append_assoc, List.append_assoc,
      ← List.append_assoc q.1]
    exact .bar hq ih

/-- The text that has been read for a frame. -/
def FrameText (f : RxFrame) (u : Bytes) : Prop :=
  ∃ qs ps : List (Bytes × Re), (∀ q ∈ qs, ReSays .sequence q.1 q.2) ∧ (∀ p ∈ ps, p.1 ≠ [] ∧ ReSays .repetition p.1 p.2) ∧
    f.alts = (qs.map (·.2)).reverse ∧ f.cur = (ps.map (·.2)).reverse ∧ u = qs.flatMap (fun q => q.1 ++ [124]) ++ ps.flatMap (·.1)

theorem FrameText.nil : FrameText ⟨[], []⟩ [] := ⟨[], [], by simp, by simp, rfl, rfl, rfl⟩

theorem FrameText.close {f : RxFrame} {u : Bytes} (h : FrameText f u) : ReSays .alternation u f.close := by
  obtain ⟨qs, ps, hq, hp, e1, e2, rfl⟩ := h
  rw [RxFrame.close, e1, e2]
  exact alt_says (cat_says ps hp) qs hq

theorem FrameText.push {f : RxFrame} {u s : Bytes} {a : Re} (h : FrameText f u) (hs : s ≠ []) (ha : ReSays .repetition s a) :
    FrameText { f with cur := a :: f.cur } (u ++ s) := by
  obtain ⟨qs, ps, hq, hp, e1, e2, rfl⟩ := h
  refine ⟨qs, ps ++ [(s, a)], hq, ?_, e1, by simp [e2], by simp⟩
  intro p hm
  rcases List.mem_append.mp hm with hm | hm
  · exact hp p hm
  · rw [List.mem_singleton.mp hm]; exact ⟨hs, ha⟩

theorem FrameText.bar {f : RxFrame} {u : Bytes} (h : FrameText f u) : FrameText ⟨mkCat f.cur :: f.alts, []⟩ (u ++ [124]) := by
  obtain ⟨qs, ps, hq, hp, e1, e2, rfl⟩ := h
  refine ⟨qs ++ [(ps.flatMap (·.1), mkCat f.cur)], [], ?_, by simp, by simp [e1], rfl, by simp⟩
  intro q hm
  rcases List.mem_append.mp hm with hm | hm
  · exact hq q hm
  · rw [List.mem_singleton.mp hm, e2]; exact cat_says ps hp

/-- The text that has been read with some groups open. -/
def StackText : List RxFrame → RxFrame → Bytes → Prop
  | [], top, u => FrameText top u
  | f :: stack, top, u => ∃ u0 op v, u = u0 ++ (op ++ v) ∧ (op = [40] ∨ op = [40, 63, 58]) ∧ StackText stack f u0 ∧ FrameText top v

theorem StackText.open_ {stack : List RxFrame} {top : RxFrame} {u op : Bytes} (h : StackText stack top u)
    (ho : op = [40] ∨ op = [40, 63, 58]) : StackText (top :: stack) ⟨[], []⟩ (u ++ op) :=
  ⟨u, op, [], by simp, ho, h, FrameText.nil⟩

theorem StackText.push {stack : List RxFrame} {top : RxFrame} {u s : Bytes} {a : Re} (h : StackText stack top u) (hs : s ≠ [])
    (ha : ReSays .repetition s a) : StackText stack { top with cur := a :: top.cur } (u ++ s) := by
  cases stack with
  | nil => exact FrameText.push h hs ha
  | cons f stack =>
    obtain ⟨u0, op, v, rfl, ho, h1, h2⟩ := h
    exact ⟨u0, op, v ++ s, by simp, ho, h1, h2.push hs ha⟩

theorem StackText.bar {stack : List RxFrame} {top : RxFrame} {u : Bytes} (h : StackText stack top u) :
    StackText stack ⟨mkCat top.cur :: top.alts, []⟩ (u ++ [124]) := by
  cases stack with
  | nil => exact FrameText.bar h
  | cons f stack =>
    obtain ⟨u0, op, v, rfl, ho, h1, h2⟩ := h
    exact ⟨u0, op, v ++ [124], by simp, ho, h1, h2.bar⟩

theorem loop_sound : ∀ {n : Nat} {stack : List RxFrame} {top : RxFrame} {s u : Bytes} {re : Re}, StackText stack top u →
    parseLoop n stack top s = .ok re → ReSays .alternation (u ++ s) re := by
  have last : ∀ {n : Nat} {stack : List RxFrame} {top : RxFrame} {u : Bytes} {re : Re}, StackText stack top u →
      parseLoop n stack top [] = .ok re → ReSays .alternation (u ++ []) re := by
    intro n stack top u re hu h
    rw [List.append_nil]
    unfold parseLoop at h
    split at h
    · rename_i h0
      subst h0
      cases h
      exact FrameText.close hu
    · cases h
  intro n
  induction n with
  | zero =>
    intro stack top s u re hu h
    cases s with
    | nil => exact last hu h
    | cons c r => simp [parseLoop] at h
  | succ n ih =>
    intro stack top s u re hu h
    cases s with
    | nil => exact last hu h
    | cons c r =>
      unfold parseLoop at h
      split at h
      · rename_i hc
        subst hc
        split at h
        · rename_i h63
          split at h
          · rename_i h58
            have e : r = 63 :: 58 :: r.tail.tail := by
              cases r with
              | nil => simp at h63
              | cons x r =>
                cases r with
                | nil => simp at h58
                | cons y r =>
                  simp only [List.head?_cons, List.tail_cons, Option.some.injEq] at h63 h58
                  rw [h63, h58]; rfl
            have := ih (hu.open_ (op := [40, 63, 58]) (.inr rfl)) h
            rw [e]
            simpa using this
          · cases h
        · simpa using ih (hu.open_ (op := [40]) (.inl rfl)) h
      · rename_i hc40
        split at h
        · rename_i hc
          subst hc
          split at h
          · cases h
          · rename_i f stack'
            split at h
            · cases h
            · rename_i p hp
              obtain ⟨u0, op, v, rfl, ho, h1, h2⟩ := hu
              have hat : ReSays .atom (op ++ v ++ [41]) top.close := by
                rcases ho with rfl | rfl
                · exact ReSays.group h2.close
                · exact ReSays.group' h2.close
              obtain ⟨y, hy, hrep⟩ := rep_sound hat hp
              have hne : op ++ v ++ [41] ++ y ≠ [] := by simp
              have := ih (h1.push hne hrep) h
              rw [hy]
              simpa using this
        · rename_i hc41
          split at h
          · rename_i hc
            subst hc
            simpa using ih hu.bar h
          · rename_i hc124
            split at h
            · cases h
            · rename_i q hq
              split at h
              · cases h
              · rename_i p hp
                obtain ⟨y, hy0, hy, hat⟩ := atom_sound hq (by
                  intro b hb
                  simp only [List.head?_cons, Option.some.injEq] at hb
                  subst hb
                  exact ⟨hc40, hc41, hc124⟩)
                obtain ⟨z, hz, hrep⟩ := rep_sound hat hp
                have := ih (hu.push (s := y ++ z) (by simp [hy0]) hrep) h
                rw [hy, hz]
                simpa using this

/-! ## Completeness -/

/-- What comes after an operand is no operator. -/
def NoOp (s : Bytes) : Prop := ∀ b, s.head? = some b → isRepOp b = false ∧ b ≠ 123

theorem parseRep_noop {a : Re} {s : Bytes} (h : NoOp s) : parseRep a s = .ok (a, s) := by
  unfold parseRep
  cases s with
  | nil => rfl
  | cons b r =>
    obtain ⟨h1, h2⟩ := h b rfl
    simp [h1, h2]

theorem lazyMark_text {g : Bool} {s : Bytes} (h : NoOp s) : lazyMark (lazyText g ++ s) = (g, s) := by
  cases g with
  | false => rfl
  | true =>
    cases s with
    | nil => rfl
    | cons b r =>
      have := (h b rfl).1
      have hb : b ≠ 63 := by rintro rfl; revert this; decide
      simp [lazyMark, lazyText, hb]

theorem parseRep_op {a : Re} {s : Bytes} {op : UInt8} {g : Bool} (h : NoOp s) (hop : op = 42 ∨ op = 43 ∨ op = 63)
    (hn : op ≠ 63 → a.nullable = false) : parseRep a (op :: (lazyText g ++ s)) = .ok (mkRep op g a, s) := by
  unfold parseRep
  have h123 : op ≠ 123 := by rcases hop with rfl | rfl | rfl <;> decide
  have hrep : isRepOp op = true := isRepOp_iff.mpr hop
  have hnull : (op ≠ 63 && a.nullable) = false := by
    by_cases h63 : op = 63
    · simp [h63]
    · simp [hn h63]
  simp only [if_neg h123, hrep, Bool.not_true, Bool.false_eq_true, if_false, lazyMark_text h]
  rw [hnull, if_neg (by simp)]
  cases s with
  | nil => rfl
  | cons b r =>
    obtain ⟨h1, h2⟩ := h b rfl
    simp [h1, h2]

/-- What the parser does with a text of each level. -/
def Parsed : Level → Bytes → Re → Prop
  | .alternation, s, a => NoOp s ∧ ∀ (n : Nat) (stack : List RxFrame) (alts : List Re) (rest : Bytes), (s ++ rest).length ≤ n →
      (rest = [] ∨ rest.head? = some 41) → ∃ n' as cur, rest.length ≤ n' ∧ mkAlt (mkCat cur) as = a ∧
        parseLoop n stack ⟨alts, []⟩ (s ++ rest) = parseLoop n' stack ⟨as ++ alts, cur⟩ rest
  | .sequence, s, a => NoOp s ∧ ∀ (n : Nat) (stack : List RxFrame) (alts pre : List Re) (rest : Bytes), (s ++ rest).length ≤ n →
      NoOp rest → ∃ n' cur, rest.length ≤ n' ∧ mkCat cur = a ∧ (s ≠ [] → cur ≠ []) ∧ (s = [] → cur = []) ∧
        parseLoop n stack ⟨alts, pre⟩ (s ++ rest) = parseLoop n' stack ⟨alts, cur ++ pre⟩ rest
  | .repetition, s, a => NoOp s ∧ s ≠ [] ∧ ∀ (n : Nat) (stack : List RxFrame) (top : RxFrame) (rest : Bytes), (s ++ rest).length ≤ n →
      NoOp rest → ∃ n', rest.length ≤ n' ∧
        parseLoop n stack top (s ++ rest) = parseLoop n' stack { top with cur := a :: top.cur } rest
  | .atom, s, a => NoOp s ∧ s ≠ [] ∧ ∀ (n : Nat) (stack : List RxFrame) (top : RxFrame) (y rest : Bytes) (a' : Re),
      (s ++ (y ++ rest)).length ≤ n → parseRep a (y ++ rest) = .ok (a', rest) → ∃ n', rest.length ≤ n' ∧
        parseLoop n stack top (s ++ (y ++ rest)) = parseLoop n' stack { top with cur := a' :: top.cur } rest

theorem NoOp.append {s t : Bytes} (h : NoOp s) (hs : s ≠ []) : NoOp (s ++ t) := by
  cases s with
  | nil => exact absurd rfl hs
  | cons b s => intro c hc; exact h c (by simpa using hc)

theorem noOp_cons {b : UInt8} {s : Bytes} (h1 : isRepOp b = false) (h2 : b ≠ 123) : NoOp (b :: s) := by
  intro c hc
  simp only [List.head?_cons, Option.some.injEq] at hc
  subst hc
  exact ⟨h1, h2⟩

theorem noOp_nil : NoOp [] := by intro b hb; simp at hb

/-- An operand that is not a group. -/
theorem parsed_atom {s : Bytes} {a : Re} {b : UInt8} {t : Bytes} (e : s = b :: t) (h40 : b ≠ 40) (h41 : b ≠ 41) (h124 : b ≠ 124)
    (hop : isRepOp b = false) (h123 : b ≠ 123) (h : ∀ rest, parseAtom (s ++ rest) = .ok (a, rest)) : Parsed .atom s a := by
  refine ⟨by rw [e]; exact noOp_cons hop h123, by rw [e]; simp, fun n stack top y rest a' hn hrep => ?_⟩
  have ha := h (y ++ rest)
  cases n with
  | zero => rw [e] at hn; simp at hn
  | succ n =>
    refine ⟨n, ?_, ?_⟩
    · rw [e] at hn; simp at hn; omega
    · subst e
      rw [List.cons_append] at ha ⊢
      conv => lhs; unfold parseLoop
      simp only [if_neg h40, if_neg h41, if_neg h124, ha, hrep]

theorem says_parsed {lv : Level} {s : Bytes} {a : Re} (h : ReSays lv s a) : Parsed lv s a := by
  have endOk : ∀ {rest : Bytes}, (rest = [] ∨ rest.head? = some 41) → NoOp rest := by
    intro rest h
    rcases h with rfl | h
    · exact noOp_nil
    · intro b hb
      rw [h] at hb
      cases hb
      decide
  have group : ∀ {s : Bytes} {a : Re} (op : Bytes), (op = [40] ∧ s.head? ≠ some 63) ∨ op = [40, 63, 58] → Parsed .alternation s a →
      Parsed .atom (op ++ s ++ [41]) a := by
    intro s a op hop ih
    refine ⟨?_, by simp, fun n stack top y rest a' hn hrep => ?_⟩
    · rcases hop with ⟨rfl, _⟩ | rfl
      · exact noOp_cons (by decide) (by decide)
      · exact noOp_cons (by decide) (by decide)
    · cases n with
      | zero => simp at hn
      | succ n =>
        have hl : (s ++ 41 :: (y ++ rest)).length ≤ n := by
          rcases hop with ⟨rfl, _⟩ | rfl <;> simp at hn ⊢ <;> omega
        obtain ⟨n', as, cur, hn', hc, e⟩ := ih.2 n (top :: stack) [] (41 :: (y ++ rest)) hl (.inr rfl)
        have e0 : parseLoop (n + 1) stack top (op ++ s ++ [41] ++ (y ++ rest)) = parseLoop n (top :: stack) ⟨[], []⟩ (s ++ 41 :: (y ++ rest)) := by
          rcases hop with ⟨rfl, h63⟩ | rfl
          · have : (s ++ 41 :: (y ++ rest)).head? ≠ some 63 := by
              cases s with
              | nil => simp
              | cons b s => simpa using h63
            simp only [List.append_assoc, List.cons_append, List.nil_append]
            conv => lhs; unfold parseLoop
            rw [if_pos rfl, if_neg this]
          · simp only [List.append_assoc, List.cons_append, List.nil_append]
            conv => lhs; unfold parseLoop
            rw [if_pos rfl, if_pos (by rfl), if_pos (by rfl)]
            rfl
        rw [e0, e]
        cases n' with
        | zero => simp at hn'
        | succ n' =>
          refine ⟨n', by simp at hn'; omega, ?_⟩
          conv => lhs; unfold parseLoop
          rw [if_neg (by decide), if_pos rfl]
          have : RxFrame.close ⟨as ++ [], cur⟩ = a := by rw [List.append_nil]; exact hc
          simp only [this, hrep]
  induction h with
  | last h ih =>
    refine ⟨ih.1, fun n stack alts rest hn hrest => ?_⟩
    obtain ⟨n', cur, h1, h2, h3, h4, h5⟩ := ih.2 n stack alts [] rest hn (endOk hrest)
    exact ⟨n', [], cur, h1, h2, by simpa using h5⟩
  | @bar s a t b h h' ih ih' =>
    have hbar : str "|" = [124] := by decide +kernel
    rw [hbar]
    refine ⟨?_, fun n stack alts rest hn hrest => ?_⟩
    · cases s with
      | nil => exact noOp_cons (by decide) (by decide)
      | cons b s => rw [List.append_assoc]; exact ih.1.append (by simp)
    obtain ⟨n', cur, h1, h2, h3, h4, h5⟩ := ih.2 n stack alts [] (124 :: (t ++ rest)) (by simpa using hn) (noOp_cons (by decide) (by decide))
    cases n' with
    | zero => simp at h1
    | succ n' =>
      obtain ⟨m, as, cur', g1, g2, g3⟩ := ih'.2 n' stack (a :: alts) rest (by simpa using h1) hrest
      refine ⟨m, as ++ [a], cur', g1, by rw [mkAlt_snoc, g2], ?_⟩
      have e : s ++ [124] ++ t ++ rest = s ++ 124 :: (t ++ rest) := by simp
      rw [e, h5]
      conv => lhs; unfold parseLoop
      rw [if_neg (by decide), if_neg (by decide), if_pos rfl]
      simp only [List.append_nil, h2]
      rw [g3]
      simp
  | nothing =>
    refine ⟨noOp_nil, fun n stack alts pre rest hn hrest => ?_⟩
    exact ⟨n, [], by simpa using hn, rfl, by simp, by simp, rfl⟩
  | @single s a h ih =>
    refine ⟨ih.1, fun n stack alts pre rest hn hrest => ?_⟩
    obtain ⟨n', h1, h2⟩ := ih.2.2 n stack ⟨alts, pre⟩ rest hn hrest
    exact ⟨n', [a], h1, rfl, by simp, fun h0 => absurd h0 ih.2.1, h2⟩
  | @andThen s a t b h ht h' ih ih' =>
    refine ⟨ih.1.append ih.2.1, fun n stack alts pre rest hn hrest => ?_⟩
    have hno : NoOp (t ++ rest) := ih'.1.append ht
    obtain ⟨n', h1, h2⟩ := ih.2.2 n stack ⟨alts, pre⟩ (t ++ rest) (by simpa using hn) hno
    obtain ⟨m, cur, g1, g2, g3, g4, g5⟩ := ih'.2 n' stack alts (a :: pre) rest h1 hrest
    refine ⟨m, cur ++ [a], g1, by rw [mkCat_snoc (g3 ht), g2], by simp, fun h0 => absurd h0 (by simp [ht]), ?_⟩
    rw [List.append_assoc, h2, g5]
    simp
  | once h ih =>
    refine ⟨ih.1, ih.2.1, fun n stack top rest hn hrest => ?_⟩
    exact ih.2.2 n stack top [] rest _ (by simpa using hn) (by simpa using parseRep_noop hrest)
  | @star s a g h ha ih =>
    have hop : str "*" = [42] := by decide +kernel
    rw [hop, List.append_assoc]
    refine ⟨ih.1.append ih.2.1, by simp, fun n stack top rest hn hrest => ?_⟩
    rw [List.append_assoc] at hn ⊢
    exact ih.2.2 n stack top ([42] ++ lazyText g) rest _ hn (by simpa [mkRep] using parseRep_op (a := a) (g := g) hrest (.inl rfl) (fun _ => ha))
  | @plus s a g h ha ih =>
    have hop : str "+" = [43] := by decide +kernel
    rw [hop, List.append_assoc]
    refine ⟨ih.1.append ih.2.1, by simp, fun n stack top rest hn hrest => ?_⟩
    rw [List.append_assoc] at hn ⊢
    exact ih.2.2 n stack top ([43] ++ lazyText g) rest _ hn (by simpa [mkRep] using parseRep_op (a := a) (g := g) hrest (.inr (.inl rfl)) (fun _ => ha))
  | @quest s a g h ih =>
    have hop : str "?" = [63] := by decide +kernel
    rw [hop, List.append_assoc]
    refine ⟨ih.1.append ih.2.1, by simp, fun n stack top rest hn hrest => ?_⟩
    rw [List.append_assoc] at hn ⊢
    exact ih.2.2 n stack top ([63] ++ lazyText g) rest _ hn (by simpa [mkRep] using parseRep_op (a := a) (g := g) hrest (.inr (.inr rfl)) (fun h => absurd rfl h))
  | @group s a h ih =>
    have h1 : str "(" = [40] := by decide +kernel
    have h2 : str ")" = [41] := by decide +kernel
    rw [h1, h2]
    refine group [40] (.inl ⟨rfl, fun h63 => ?_⟩) ih
    have := (ih.1 63 h63).1
    revert this
    decide
  | @group' s a h ih =>
    have h1 : str "(?:" = [40, 63, 58] := by decide +kernel
    have h2 : str ")" = [41] := by decide +kernel
    rw [h1, h2]
    exact group [40, 63, 58] (.inr rfl) ih
  | @char b hb hsp =>
    have hs := fun h => hsp (special_iff.mpr h)
    have h128 : ¬ 128 ≤ b := UInt8.not_le.mpr hb
    refine parsed_atom rfl (fun h => hs (by simp [h])) (fun h => hs (by simp [h])) (fun h => hs (by simp [h])) ?_
      (fun h => hs (by simp [h])) fun rest => ?_
    · cases hr : isRepOp b with
      | false => rfl
      | true => rcases isRepOp_iff.mp hr with h | h | h <;> exact absurd (by simp [h]) hs
    · rw [List.singleton_append]
      unfold parseAtom
      split
      any_goals (rename_i he; simp only [List.cons.injEq] at he; obtain ⟨rfl, _⟩ := he; simp at hs; done)
      · rename_i he; simp at he
      · rename_i he
        simp only [List.cons.injEq] at he
        obtain ⟨rfl, rfl⟩ := he
        rw [if_neg h128]
  | @escaped b hb =>
    have := escapable_iff.mpr hb
    refine parsed_atom rfl (by decide) (by decide) (by decide) (by decide) (by decide) fun rest => ?_
    simp only [List.cons_append, List.nil_append, parseAtom, this, Bool.false_eq_true, if_false]
  | bol => exact parsed_atom (b := 94) (t := []) (by decide +kernel) (by decide) (by decide) (by decide) (by decide) (by decide) fun rest => rfl
  | eol => exact parsed_atom (b := 36) (t := []) (by decide +kernel) (by decide) (by decide) (by decide) (by decide) (by decide) fun rest => rfl
  | any => exact parsed_atom (b := 46) (t := []) (by decide +kernel) (by decide) (by decide) (by decide) (by decide) (by decide) fun rest => rfl
  | @cls t l h ht =>
    have hop : str "[" = [91] := by decide +kernel
    rw [hop]
    refine parsed_atom (b := 91) (t := t) rfl (by decide) (by decide) (by decide) (by decide) (by decide) fun rest => ?_
    have := ClassItems.parse h ((t ++ rest).length + 1) [] rest (by simp; omega)
    cases t with
    | nil => exact absurd rfl (ClassItems.ne_nil h)
    | cons d t =>
      have hd : d ≠ 94 := by simpa using ht
      simp only [List.cons_append, List.nil_append] at this ⊢
      unfold parseAtom
      split
      any_goals (rename_i he; simp at he)
      · exact absurd he.1 hd
      · rw [← he, this]; rfl
      · rename_i h91 _ _ ; exact absurd he.1.symm ‹_›
  | @ncls t l h =>
    have hop : str "[^" = [91, 94] := by decide +kernel
    rw [hop]
    refine parsed_atom (b := 91) (t := 94 :: t) rfl (by decide) (by decide) (by decide) (by decide) (by decide) fun rest => ?_
    have := ClassItems.parse h ((t ++ rest).length + 1) [] rest (by simp; omega)
    simp only [List.cons_append, List.nil_append, parseAtom, this]
    rfl

theorem parseRe_iff {s : GoStr} {re : Re} : parseRe s = .ok re ↔ ReSays .alternation s re := by
  constructor
  · intro h
    exact loop_sound (stack := []) (u := []) FrameText.nil h
  · intro h
    obtain ⟨n', as, cur, h1, h2, h3⟩ := (says_parsed h).2 s.length [] [] [] (by simp) (.inl rfl)
    rw [List.append_nil, List.append_nil] at h3
    rw [parseRe, h3]
    unfold parseLoop
    simp only [if_true, RxFrame.close, h2]

end Verif
