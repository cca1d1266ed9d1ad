import Verif.Proofs.Regexp
/-! What the parser makes of a text. -/
namespace Verif
open Spec

theorem parseClassChar_suffix {s : Bytes} {p : UInt8 × Bytes} (h : parseClassChar s = .ok p) : ∃ y, y ≠ [] ∧ s = y ++ p.2 := by
  unfold parseClassChar at h
  split at h
  · cases h
  · cases h
  · rename_i c r
    split at h
    · cases h
    · cases h; exact ⟨[92, c], by simp, rfl⟩
  · rename_i c r _ _
    split at h
    · cases h
    · cases h; exact ⟨[c], by simp, rfl⟩

theorem parseClass_suffix : ∀ {n : Nat} {first : Bool} {acc : List (UInt8 × UInt8)} {s : Bytes} {p : List (UInt8 × UInt8) × Bytes},
    parseClass n first acc s = .ok p → ∃ y, s = y ++ 93 :: p.2 := by
  intro n
  induction n with
  | zero => intro first acc s p h; cases h
  | succ n ih =>
    intro first acc s p h
    unfold parseClass at h
    split at h
    · cases h
    · cases h
    · rename_i c r _
      split at h
      · rename_i hc
        cases h
        have : c = 93 := by simp at hc; exact hc.1
        exact ⟨[], by rw [this]; rfl⟩
      · split at h
        · cases h
        · rename_i lo r1 h1
          obtain ⟨y1, _, e1⟩ := parseClassChar_suffix h1
          simp only at e1
          split at h
          · rename_i d r2
            split at h
            · obtain ⟨y, e⟩ := ih h
              exact ⟨y1 ++ y, by rw [e1, e]; simp⟩
            · split at h
              · cases h
              · rename_i hi r3 h3
                obtain ⟨y3, _, e3⟩ := parseClassChar_suffix h3
                simp only at e3
                split at h
                · cases h
                · obtain ⟨y, e⟩ := ih h
                  exact ⟨y1 ++ 45 :: (y3 ++ y), by rw [e1, e3, e]; simp⟩
          · obtain ⟨y, e⟩ := ih h
            exact ⟨y1 ++ y, by rw [e1, e]; simp⟩

/-- The text ends in a slash. -/
def EndsSlash (s : Bytes) : Prop := ∃ y, s = y ++ [47]

theorem EndsSlash.rest {y r : Bytes} (h : EndsSlash (y ++ r)) (hr : r ≠ []) : EndsSlash r := by
  obtain ⟨z, hz⟩ := h
  rcases List.eq_nil_or_concat r with rfl | ⟨r', b, rfl⟩
  · exact absurd rfl hr
  · rw [List.concat_eq_append, ← List.append_assoc] at hz
    have := (List.append_inj' hz rfl).2
    simp only [List.cons.injEq, and_true] at this
    exact ⟨r', by simp [this]⟩

theorem EndsSlash.last {y : Bytes} {b : UInt8} (h : EndsSlash (y ++ [b])) : b = 47 := by
  obtain ⟨z, hz⟩ := h
  have := (List.append_inj' hz rfl).2
  simpa using this

/-- An operand is read from the front, and if nothing is left of a text that ends in a slash then it is the slash. -/
theorem parseAtom_suffix {s : Bytes} {p : Re × Bytes} (h : parseAtom s = .ok p) :
    (∃ y, y ≠ [] ∧ s = y ++ p.2) ∧ (EndsSlash s → p.2 = [] → p.1 = .byte 47) := by
  have one : ∀ {c : UInt8}, EndsSlash [c] → c = 47 := fun h => EndsSlash.last (y := []) h
  unfold parseAtom at h
  split at h
  any_goals cases h
  · rename_i r
    refine ⟨⟨[94], by simp, rfl⟩, fun hs hr => ?_⟩
    simp only at hr
    subst hr
    have := one hs; simp at this
  · rename_i r
    refine ⟨⟨[36], by simp, rfl⟩, fun hs hr => ?_⟩
    simp only at hr
    subst hr
    have := one hs; simp at this
  · rename_i r
    refine ⟨⟨[46], by simp, rfl⟩, fun hs hr => ?_⟩
    simp only at hr
    subst hr
    have := one hs; simp at this
  · rename_i c r
    split at h
    · cases h
    · cases h
      refine ⟨⟨[92, c], by simp, rfl⟩, fun hs hr => ?_⟩
      simp only at hr
      subst hr
      rw [EndsSlash.last (y := [92]) hs]
  · rename_i r
    cases hc : parseClass (r.length + 1) true [] r with
    | error e => rw [hc] at h; cases h
    | ok q =>
      rw [hc] at h
      cases h
      obtain ⟨y, e⟩ := parseClass_suffix hc
      refine ⟨⟨91 :: 94 :: y ++ [93], by simp, by simp [e]⟩, fun hs hr => ?_⟩
      simp only at hr
      rw [hr] at e
      rw [e] at hs
      have := EndsSlash.last (y := 91 :: 94 :: y) hs
      simp at this
  · rename_i r _
    cases hc : parseClass (r.length + 1) true [] r with
    | error e => rw [hc] at h; cases h
    | ok q =>
      rw [hc] at h
      cases h
      obtain ⟨y, e⟩ := parseClass_suffix hc
      refine ⟨⟨91 :: y ++ [93], by simp, by simp [e]⟩, fun hs hr => ?_⟩
      simp only at hr
      rw [hr] at e
      rw [e] at hs
      have := EndsSlash.last (y := 91 :: y) hs
      simp at this
  · rename_i c r _ _ _ _ _ _ _ _ _ _ _
    split at h
    · cases h
    · cases h
      refine ⟨⟨[c], by simp, rfl⟩, fun hs hr => ?_⟩
      simp only at hr
      subst hr
      rw [one hs]

theorem isRepOp_47 : isRepOp 47 = false := by decide

/-- An operator is read from the front, nothing happens at the end of the text, and a slash stays. -/
theorem parseRep_suffix {a : Re} {s : Bytes} {p : Re × Bytes} (h : parseRep a s = .ok p) :
    (∃ y, s = y ++ p.2) ∧ (s = [] → p = (a, [])) ∧ (EndsSlash s → p.2 ≠ []) ∧ (s.head?.all (fun b => !isRepOp b) = true → p = (a, s)) := by
  unfold parseRep at h
  split at h
  · cases h
    exact ⟨⟨[], rfl⟩, fun _ => rfl, fun ⟨y, hy⟩ => absurd hy (by simp), fun _ => rfl⟩
  · rename_i op r
    split at h
    · cases h
    split at h
    · rename_i hop
      cases h
      exact ⟨⟨[], rfl⟩, fun h => absurd h (by simp), fun _ => by simp, fun _ => rfl⟩
    rename_i hop
    have hop' : isRepOp op = true := by simpa using hop
    split at h
    · cases h
    have hq : ∃ y, (y = [] ∨ y = [63]) ∧ r = y ++ (lazyMark r).2 := by
      unfold lazyMark
      split
      · rename_i h63
        cases r with
        | nil => simp at h63
        | cons b t => simp only [List.head?_cons, Option.some.injEq] at h63; subst h63; exact ⟨[63], .inr rfl, rfl⟩
      · exact ⟨[], .inl rfl, rfl⟩
    generalize lazyMark r = q at h hq
    obtain ⟨y, hy, e⟩ := hq
    have hp : p.2 = q.2 := by
      split at h
      · rename_i h0; cases h; rw [h0]
      · split at h
        · cases h
        · split at h
          · cases h
          · cases h; rfl
    refine ⟨⟨op :: y, by rw [hp]; simp [← e]⟩, fun h => absurd h (by simp), ?_, ?_⟩
    · intro hs h0
      rw [hp] at h0
      rw [h0, List.append_nil] at e
      subst e
      rcases hy with rfl | rfl
      · have := EndsSlash.last (y := []) hs
        subst this
        rw [isRepOp_47] at hop'; cases hop'
      · have := EndsSlash.last (y := [op]) hs
        simp at this
    · intro h0
      simp [hop'] at h0

theorem foldCat_rooted {l : List Re} : ∀ {acc : Re}, rootedCheck ((l ++ [Re.bol]).foldl (fun acc x => Re.cat x acc) acc) = true := by
  induction l with
  | nil => intro acc; rfl
  | cons a l ih => intro acc; exact ih

theorem mkCat_rooted {l : List Re} : rootedCheck (mkCat (l ++ [.bol])) = true := by
  cases l with
  | nil => rfl
  | cons a l => exact foldCat_rooted

theorem mkCat_slash {l : List Re} : slashCheck (mkCat (.byte 47 :: l)) = true := by
  have : ∀ (l : List Re) (acc : Re), slashCheck acc = true → slashCheck (l.foldl (fun acc x => .cat x acc) acc) = true := by
    intro l
    induction l with
    | nil => intro acc h; exact h
    | cons a l ih => intro acc h; exact ih _ h
  exact this l _ rfl

/-- The bottom of the stack. -/
def bottom (stack : List RxFrame) (top : RxFrame) : RxFrame := (stack.getLast?).getD top

theorem bottom_cons {stack : List RxFrame} {f top : RxFrame} : bottom (f :: stack) top = bottom stack f := by
  unfold bottom
  cases stack with
  | nil => rfl
  | cons g t => rw [List.getLast?_cons_cons]; simp [List.getLast?_cons]

theorem bottom_nil {top : RxFrame} : bottom [] top = top := rfl

/-- An expression without alternation is what has been read before, after which comes the rest. -/
theorem parseLoop_bottom {P : RxFrame → Prop} (hP : ∀ f a, P f → P { f with cur := a :: f.cur }) :
    ∀ (n : Nat) (stack : List RxFrame) (top : RxFrame) (s : Bytes) (re : Re), (124 : UInt8) ∉ s → P (bottom stack top) →
      parseLoop n stack top s = .ok re → ∃ f, P f ∧ re = f.close := by
  intro n
  induction n with
  | zero =>
    intro stack top s re hs hb h
    cases s with
    | nil =>
      simp only [parseLoop] at h
      split at h
      · rename_i h0; subst h0; cases h; exact ⟨top, hb, rfl⟩
      · cases h
    | cons c r => simp [parseLoop] at h
  | succ n ih =>
    intro stack top s re hs hb h
    cases s with
    | nil =>
      simp only [parseLoop] at h
      split at h
      · rename_i h0; subst h0; cases h; exact ⟨top, hb, rfl⟩
      · cases h
    | cons c r =>
      have hr : (124 : UInt8) ∉ r := fun h => hs (List.mem_cons_of_mem _ h)
      have htop : ∀ a, P (bottom stack { top with cur := a :: top.cur }) := by
        intro a
        cases stack with
        | nil => exact hP _ _ hb
        | cons f t => rw [bottom_cons] at hb ⊢; exact hb
      simp only [parseLoop] at h
      split at h
      · split at h
        · split at h
          · refine ih _ _ _ _ (fun hm => hr (List.mem_of_mem_tail (List.mem_of_mem_tail hm))) ?_ h
            rw [bottom_cons]; exact hb
          · cases h
        · refine ih _ _ _ _ hr ?_ h
          rw [bottom_cons]; exact hb
      · split at h
        · split at h
          · cases h
          · rename_i f stack'
            rw [bottom_cons] at hb
            split at h
            · cases h
            · rename_i p hp
              obtain ⟨⟨y, e⟩, _⟩ := parseRep_suffix hp
              refine ih _ _ _ _ (fun hm => hr (by rw [e]; exact List.mem_append_right _ hm)) ?_ h
              cases stack' with
              | nil => exact hP _ _ hb
              | cons g t => rw [bottom_cons] at hb ⊢; exact hb
        · split at h
          · rename_i hc; exact absurd (by rw [hc]; exact List.mem_cons_self) hs
          · split at h
            · cases h
            · rename_i q hq
              split at h
              · cases h
              · rename_i p hp
                obtain ⟨⟨y, _, e⟩, _⟩ := parseAtom_suffix hq
                obtain ⟨⟨z, e'⟩, _⟩ := parseRep_suffix hp
                refine ih _ _ _ _ (fun hm => hs ?_) (htop _) h
                rw [e, e']
                exact List.mem_append_right _ (List.mem_append_right _ hm)

/-- A text that ends in a slash: the last operand is the slash. -/
theorem parseLoop_slash : ∀ (n : Nat) (stack : List RxFrame) (top : RxFrame) (s : Bytes) (re : Re), (124 : UInt8) ∉ s →
      (bottom stack top).alts = [] → EndsSlash s → parseLoop n stack top s = .ok re → ∃ l, re = mkCat (.byte 47 :: l) := by
  intro n
  induction n with
  | zero =>
    intro stack top s re hs hb he h
    cases s with
    | nil => obtain ⟨y, hy⟩ := he; simp at hy
    | cons c r => simp [parseLoop] at h
  | succ n ih =>
    intro stack top s re hs hb he h
    cases s with
    | nil => obtain ⟨y, hy⟩ := he; simp at hy
    | cons c r =>
      have hr : (124 : UInt8) ∉ r := fun h => hs (List.mem_cons_of_mem _ h)
      have hsub : ∀ {y t : Bytes}, c :: r = y ++ t → t ≠ [] → EndsSlash t := fun e h0 => EndsSlash.rest (e ▸ he) h0
      have hnil : ∀ {m : Nat} {st : List RxFrame} {f : RxFrame}, c ≠ 47 → r = [] → False := by
        intro _ _ _ hc h0
        subst h0
        exact hc (EndsSlash.last (y := []) he)
      have htop : ∀ a, (bottom stack { top with cur := a :: top.cur }).alts = [] := by
        intro a
        cases stack with
        | nil => exact hb
        | cons f t => rw [bottom_cons] at hb ⊢; exact hb
      simp only [parseLoop] at h
      split at h
      · rename_i hc
        have hr0 : r ≠ [] := fun h0 => hnil (m := 0) (st := []) (f := top) (by rw [hc]; decide) h0
        split at h
        · rename_i h1
          split at h
          · rename_i h2
            have hsplit : ∃ t, r = 63 :: 58 :: t := by
              match r, h1, h2 with
              | a :: b :: t, h1, h2 =>
                simp only [List.head?_cons, Option.some.injEq, List.tail_cons] at h1 h2
                exact ⟨t, by rw [h1, h2]⟩
            obtain ⟨t, rfl⟩ := hsplit
            simp only [List.tail_cons] at h
            have ht : t ≠ [] := by
              rintro rfl
              have := EndsSlash.last (y := [c, 63]) he
              simp at this
            refine ih _ _ _ _ (fun hm => hr (by simp [hm])) ?_ (hsub (y := [c, 63, 58]) rfl ht) h
            rw [bottom_cons]; exact hb
          · cases h
        · refine ih _ _ _ _ hr ?_ (hsub (y := [c]) rfl hr0) h
          rw [bottom_cons]; exact hb
      · split at h
        · rename_i hc
          have hr0 : r ≠ [] := fun h0 => hnil (m := 0) (st := []) (f := top) (by rw [hc]; decide) h0
          split at h
          · cases h
          · rename_i f stack'
            rw [bottom_cons] at hb
            split at h
            · cases h
            · rename_i p hp
              obtain ⟨⟨y, e⟩, _, e2, _⟩ := parseRep_suffix hp
              have hp0 := e2 (hsub (y := [c]) rfl hr0)
              refine ih _ _ _ _ (fun hm => hr (by rw [e]; exact List.mem_append_right _ hm)) ?_ (hsub (y := c :: y) (by rw [e]; rfl) hp0) h
              cases stack' with
              | nil => exact hb
              | cons g t => rw [bottom_cons] at hb ⊢; exact hb
        · split at h
          · rename_i hc; exact absurd (by rw [hc]; exact List.mem_cons_self) hs
          · split at h
            · cases h
            · rename_i q hq
              split at h
              · cases h
              · rename_i p hp
                obtain ⟨⟨y, _, e⟩, hlast⟩ := parseAtom_suffix hq
                obtain ⟨⟨z, e'⟩, h0, h1, _⟩ := parseRep_suffix hp
                by_cases hq2 : q.2 = []
                · have hp' := h0 hq2
                  rw [hlast he hq2] at hp'
                  subst hp'
                  cases stack with
                  | nil =>
                    have htop0 : top.alts = [] := hb
                    have hre : re = (RxFrame.close { top with cur := .byte 47 :: top.cur }) := by
                      cases n <;> (simp only [parseLoop] at h; cases h; rfl)
                    refine ⟨top.cur, ?_⟩
                    rw [hre]
                    simp [RxFrame.close, htop0, mkAlt]
                  | cons f t => cases n <;> simp [parseLoop] at h
                · have hq' := hsub e hq2
                  have hp2 := h1 hq'
                  refine ih _ _ _ _ (fun hm => hs ?_) (htop _) (hsub (y := y ++ z) (by rw [e, e']; simp) hp2) h
                  rw [e, e']
                  exact List.mem_append_right _ (List.mem_append_right _ hm)

/-- `^` in front of a text without alternation anchors it (unless the text begins with an operator, which Go rejects before). -/
theorem parse_rooted {i : Bytes} {re : Re} (hi : (124 : UInt8) ∉ i) (hq : i.head?.all (fun b => !isRepOp b) = true)
    (h : parseRe (94 :: i) = .ok re) : rootedCheck re = true := by
  unfold parseRe at h
  simp only [List.length_cons, parseLoop, show (94 : UInt8) ≠ 40 by decide, show (94 : UInt8) ≠ 41 by decide,
    show (94 : UInt8) ≠ 124 by decide, if_false] at h
  split at h
  · cases h
  · rename_i q hq1
    have : q = (.bol, i) := by
      unfold parseAtom at hq1
      split at hq1 <;> simp_all
    subst this
    split at h
    · cases h
    · rename_i p hp
      have hp' := (parseRep_suffix hp).2.2.2 hq
      subst hp'
      obtain ⟨f, ⟨h1, l, h2⟩, rfl⟩ := parseLoop_bottom (P := fun f => f.alts = [] ∧ ∃ l, f.cur = l ++ [.bol])
        (fun f a hf => ⟨hf.1, a :: hf.2.choose, by rw [List.cons_append, ← hf.2.choose_spec]⟩) _ _ _ _ _ hi
        (by rw [bottom_nil]; exact ⟨rfl, [], rfl⟩) h
      simp only [RxFrame.close, h1, mkAlt, List.foldl_nil, h2]
      exact mkCat_rooted

/-- A text without alternation that ends in a slash matches only what ends in a slash. -/
theorem parse_slash {i : Bytes} {re : Re} (hi : (124 : UInt8) ∉ i) (he : EndsSlash i) (h : parseRe i = .ok re) :
    slashCheck re = true := by
  obtain ⟨l, rfl⟩ := parseLoop_slash _ _ _ _ _ hi rfl he h
  exact mkCat_slash

/-- Go rejects a text that begins with an operator. -/
theorem parse_op {i : Bytes} {re : Re} (h : parseRe i = .ok re) : i.head?.all (fun b => !isRepOp b) = true := by
  cases i with
  | nil => rfl
  | cons c r =>
    simp only [List.head?_cons, Option.all_some, Bool.not_eq_true']
    rw [← Bool.not_eq_true]
    intro hc
    simp only [isRepOp, Bool.or_eq_true, beq_iff_eq] at hc
    have : parseAtom (c :: r) = .error .bad := by
      rcases hc with (rfl | rfl) | rfl <;> rfl
    have hne : c ≠ 40 ∧ c ≠ 41 ∧ c ≠ 124 := by rcases hc with (rfl | rfl) | rfl <;> decide
    simp [parseRe, parseLoop, this, hne] at h

/-! ## Literals -/

/-- A byte that stands for itself. -/
def plainByte (b : UInt8) : Bool :=
  decide (b < 128) && !([40, 41, 42, 43, 63, 91, 92, 94, 36, 46, 123, 124] : List UInt8).contains b

theorem parseAtom_plain {b : UInt8} {r : Bytes} (h : plainByte b = true) : parseAtom (b :: r) = .ok (.byte b, r) := by
  simp only [plainByte, Bool.and_eq_true, decide_eq_true_eq, Bool.not_eq_true', ← Bool.not_eq_true, List.contains_iff_mem,
    List.mem_cons, List.not_mem_nil, or_false, not_or] at h
  obtain ⟨h1, h2⟩ := h
  unfold parseAtom
  split <;> simp_all

theorem parseRep_plain {a : Re} {s : Bytes} (h : ∀ b ∈ s, plainByte b = true) : parseRep a s = .ok (a, s) := by
  cases s with
  | nil => rfl
  | cons b r =>
    have hb := h b List.mem_cons_self
    simp only [plainByte, Bool.and_eq_true, decide_eq_true_eq, Bool.not_eq_true', ← Bool.not_eq_true, List.contains_iff_mem,
      List.mem_cons, List.not_mem_nil, or_false, not_or] at hb
    simp [parseRep, isRepOp, hb]

theorem parseLoop_plain : ∀ (s : Bytes) (n : Nat) (top : RxFrame), s.length ≤ n → (∀ b ∈ s, plainByte b = true) →
    parseLoop n [] top s = .ok (RxFrame.close { top with cur := (s.map Re.byte).reverse ++ top.cur }) := by
  intro s
  induction s with
  | nil => intro n top _ _; cases n <;> simp [parseLoop]
  | cons b r ih =>
    intro n top hn hp
    cases n with
    | zero => simp at hn
    | succ n =>
      have hb := hp b List.mem_cons_self
      have hr := fun c hc => hp c (List.mem_cons_of_mem b hc)
      have hne : b ≠ 40 ∧ b ≠ 41 ∧ b ≠ 124 := by
        simp only [plainByte, Bool.and_eq_true, decide_eq_true_eq, Bool.not_eq_true', ← Bool.not_eq_true, List.contains_iff_mem,
          List.mem_cons, List.not_mem_nil, or_false, not_or] at hb
        exact ⟨hb.2.1, hb.2.2.1, hb.2.2.2.2.2.2.2.2.2.2.2.2⟩
      simp only [parseLoop, if_neg hne.1, if_neg hne.2.1, if_neg hne.2.2, parseAtom_plain hb, parseRep_plain hr]
      rw [ih n _ (by simpa using hn) hr]
      simp

/-- The expression of a literal. -/
def litRe (s : Bytes) : Re := mkCat (s.map Re.byte).reverse

theorem parse_lit {s : Bytes} (h : ∀ b ∈ s, plainByte b = true) : parseRe s = .ok (litRe s) := by
  unfold parseRe
  rw [parseLoop_plain s _ _ (Nat.le_refl _) h]
  simp [RxFrame.close, mkAlt, litRe]

theorem parse_anchored_lit {s : Bytes} (h : ∀ b ∈ s, plainByte b = true) :
    parseRe (94 :: s) = .ok (mkCat ((s.map Re.byte).reverse ++ [.bol])) := by
  unfold parseRe
  simp only [List.length_cons, parseLoop, show (94 : UInt8) ≠ 40 by decide, show (94 : UInt8) ≠ 41 by decide,
    show (94 : UInt8) ≠ 124 by decide, if_false, show parseAtom (94 :: s) = .ok (.bol, s) from rfl, parseRep_plain h]
  rw [parseLoop_plain s _ _ (Nat.le_refl _) h]
  simp [RxFrame.close, mkAlt]

theorem mkCat_snoc {l : List Re} {a : Re} (h : l ≠ []) : mkCat (l ++ [a]) = .cat a (mkCat l) := by
  cases l with
  | nil => exact absurd rfl h
  | cons b l => simp [mkCat]

theorem matches_lit {s : Bytes} : ∀ {st : Bool} {x r : Bytes}, Matches (litRe s) st x r ↔ x = s := by
  unfold litRe
  induction s with
  | nil =>
    intro st x r
    simp only [List.map_nil, List.reverse_nil, mkCat]
    constructor
    · intro h; cases h; rfl
    · rintro rfl; exact .empty
  | cons b t ih =>
    intro st x r
    simp only [List.map_cons, List.reverse_cons]
    by_cases ht : t = []
    · subst ht
      simp only [List.map_nil, List.reverse_nil, List.nil_append, mkCat, List.foldl_nil]
      constructor
      · intro h; cases h; rfl
      · rintro rfl; exact .byte
    · rw [mkCat_snoc (by simpa using ht)]
      constructor
      · intro h
        cases h with
        | cat h1 h2 =>
          cases h1
          rw [ih.mp h2]; rfl
      · rintro rfl
        exact .cat (x := [b]) .byte (ih.mpr rfl)

theorem matches_anchored_lit {s : Bytes} {st : Bool} {x r : Bytes} :
    Matches (mkCat ((s.map Re.byte).reverse ++ [.bol])) st x r ↔ st = true ∧ x = s := by
  by_cases hs : s = []
  · subst hs
    simp only [List.map_nil, List.reverse_nil, List.nil_append, mkCat, List.foldl_nil]
    constructor
    · intro h; cases h; exact ⟨rfl, rfl⟩
    · rintro ⟨rfl, rfl⟩; exact .bol
  · rw [mkCat_snoc (by simpa using hs)]
    constructor
    · intro h
      cases h with
      | cat h1 h2 =>
        cases h1
        exact ⟨rfl, by simpa using matches_lit.mp h2⟩
    · rintro ⟨rfl, rfl⟩
      exact .cat (x := []) .bol (matches_lit.mpr rfl)

theorem find_anchored_lit {s k : Bytes} : (mkCat ((s.map Re.byte).reverse ++ [.bol])).findString k = if s.isPrefixOf k then s else [] := by
  unfold Re.findString
  have hs := findFrom_spec (mkCat ((s.map Re.byte).reverse ++ [.bol])) k.length true k (Nat.le_refl _)
  cases hf : (mkCat ((s.map Re.byte).reverse ++ [.bol])).findFrom k.length true k with
  | none =>
    rw [Option.getD_none, if_neg]
    intro hp
    obtain ⟨r, hr⟩ := List.isPrefixOf_iff_prefix.mp hp
    exact hs.2 hf [] s r (by simpa using hr.symm) .nil (by simpa using matches_anchored_lit.mpr ⟨rfl, rfl⟩)
  | some x =>
    obtain ⟨l, r, h1, _, h3, _⟩ := hs.1 x hf
    obtain ⟨hl, rfl⟩ := matches_anchored_lit.mp h3
    rw [Bool.true_and, List.isEmpty_iff] at hl
    subst hl
    rw [Option.getD_some, if_pos]
    exact List.isPrefixOf_iff_prefix.mpr ⟨r, by simpa using h1.symm⟩

/-- Every ASCII byte of a text begins a character. -/
theorem wholeChars_ascii {b : UInt8} {t : Bytes} (hb : b < 128) : ∀ l : Bytes, WholeChars l (b :: t) := by
  have key : ∀ n (l : Bytes), l.length ≤ n → WholeChars l (b :: t) := by
    intro n
    induction n with
    | zero => intro l hl; rw [List.length_eq_zero_iff.mp (Nat.le_zero.mp hl)]; exact .nil
    | succ n ih =>
      intro l hl
      cases l with
      | nil => exact .nil
      | cons c u =>
        have hle := runeWidth_le (s := c :: u ++ b :: t) (by simp)
        have hpos := runeWidth_pos (c :: u ++ b :: t)
        -- the first character does not reach beyond `l`
        have hin : runeWidth (c :: u ++ b :: t) ≤ (c :: u).length := by
          refine Decidable.byContradiction fun hgt => ?_
          have hgt : (c :: u).length < runeWidth (c :: u ++ b :: t) := Nat.lt_of_not_le hgt
          by_cases hc : c < 128
          · rw [List.cons_append, runeWidth_ascii hc] at hgt; simp at hgt
          · have hw : WideChar ((c :: u ++ b :: t).take (runeWidth (c :: u ++ b :: t))) ((c :: u ++ b :: t).drop (runeWidth (c :: u ++ b :: t))) := by
              refine ⟨?_, ?_⟩
              · obtain ⟨m, hm⟩ : ∃ m, runeWidth (c :: u ++ b :: t) = m + 1 := ⟨runeWidth (c :: u ++ b :: t) - 1, by omega⟩
                exact ⟨c, (u ++ b :: t).take m, by rw [hm]; rfl, UInt8.not_lt.mp hc⟩
              · rw [List.take_append_drop, List.length_take]; omega
            have hm : b ∈ (c :: u ++ b :: t).take (runeWidth (c :: u ++ b :: t)) := by
              rw [List.take_append]
              refine List.mem_append_right _ ?_
              obtain ⟨m, hm⟩ : ∃ m, runeWidth (c :: u ++ b :: t) - (c :: u).length = m + 1 :=
                ⟨runeWidth (c :: u ++ b :: t) - (c :: u).length - 1, by omega⟩
              rw [hm]; exact List.mem_cons_self
            have := wide_high hw b hm
            have hb' : b.toNat < 128 := UInt8.lt_iff_toNat_lt.mp hb
            omega
        have hsplit : c :: u = (c :: u).take (runeWidth (c :: u ++ b :: t)) ++ (c :: u).drop (runeWidth (c :: u ++ b :: t)) :=
          (List.take_append_drop _ _).symm
        have hlen : ((c :: u).take (runeWidth (c :: u ++ b :: t))).length = runeWidth (c :: u ++ b :: t) := by
          rw [List.length_take]; omega
        rw [hsplit]
        refine .cons ?_ ?_ (ih _ ?_)
        · intro h0; rw [h0, List.length_nil] at hlen; omega
        · rw [← List.append_assoc, ← hsplit]; exact hlen
        · rw [List.length_drop]; simp only [List.length_cons] at hl ⊢; omega
  exact fun l => key l.length l (Nat.le_refl _)

end Verif
