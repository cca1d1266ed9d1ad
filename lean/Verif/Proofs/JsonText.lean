import Verif.Model.JsonText
import Verif.Proofs.Json
/-!
# What is written is what is read
-/
namespace Verif

/-! ## Inside of string literals -/

/-- The scanner passes over `x` inside a string. -/
def Clean (x : Bytes) : Prop := ∀ t, scanStr .str (x ++ t) = (scanStr .str t).map (fun p => (x ++ p.1, p.2))

theorem Clean.nil : Clean [] := fun t => by
  cases h : scanStr .str t <;> simp [h]

theorem Clean.append {x y : Bytes} (hx : Clean x) (hy : Clean y) : Clean (x ++ y) := fun t => by
  rw [List.append_assoc, hx, hy, Option.map_map]
  congr 1
  funext p
  simp

theorem Clean.byte {c : UInt8} (h1 : c ≠ 0x22) (h2 : ¬ c.toNat < 0x20) (h3 : c ≠ 0x5C) : Clean [c] := fun t => by
  simp only [List.cons_append, List.nil_append, scanStr]
  rw [if_neg h1, if_neg h2, if_neg h3]

theorem Clean.bytes {x : Bytes} (h : ∀ c ∈ x, c ≠ 0x22 ∧ ¬ c.toNat < 0x20 ∧ c ≠ 0x5C) : Clean x := by
  induction x with
  | nil => exact Clean.nil
  | cons c x ih =>
    have hc := h c (by simp)
    exact Clean.append (x := [c]) (Clean.byte hc.1 hc.2.1 hc.2.2) (ih (fun d hd => h d (by simp [hd])))

theorem Clean.high {x : Bytes} (h : ∀ c ∈ x, 0x80 ≤ c.toNat) : Clean x := by
  refine Clean.bytes (fun c hc => ?_)
  have := h c hc
  refine ⟨fun e => ?_, by omega, fun e => ?_⟩ <;> subst e <;> exact absurd this (by decide)

theorem scan_clean {x : Bytes} (h : Clean x) (t : Bytes) : scanStr .str (x ++ 0x22 :: t) = some (x, t) := by
  rw [h]
  simp [scanStr]

theorem clean_short {e : UInt8} (h : (e = 0x62 || e = 0x66 || e = 0x6E || e = 0x72 || e = 0x74 || e = 0x5C || e = 0x2F || e = 0x22) = true) :
    Clean [0x5C, e] := fun t => by
  have hu : e ≠ 0x75 := fun he => by subst he; exact absurd h (by decide)
  simp only [List.cons_append, List.nil_append, scanStr]
  rw [if_neg (by decide), if_neg (by decide), if_pos trivial]
  simp only [scanStr]
  rw [if_neg hu, if_pos h, Option.map_map]
  rfl

theorem scanStr_digit {k : Nat} {c : UInt8} (h : (nibble c).isSome) (r : Bytes) :
    scanStr (.digits k) (c :: r) = (scanStr (if k ≤ 1 then .str else .digits (k - 1)) r).map (fun p => (c :: p.1, p.2)) := by
  obtain ⟨c', h⟩ := Option.isSome_iff_exists.mp h
  rw [scanStr, h]

theorem clean_unicode {a b c d : UInt8} (ha : (nibble a).isSome) (hb : (nibble b).isSome) (hc : (nibble c).isSome) (hd : (nibble d).isSome) :
    Clean [0x5C, 0x75, a, b, c, d] := fun t => by
  have h1 : ∀ r, scanStr .str (0x5C :: r) = (scanStr .esc r).map (fun p => (0x5C :: p.1, p.2)) := fun r => rfl
  have h2 : ∀ r, scanStr .esc (0x75 :: r) = (scanStr (.digits 4) r).map (fun p => (0x75 :: p.1, p.2)) := fun r => rfl
  simp only [List.cons_append, List.nil_append]
  rw [h1, h2, scanStr_digit ha, if_neg (by omega), scanStr_digit hb, if_neg (by omega), scanStr_digit hc, if_neg (by omega),
    scanStr_digit hd, if_pos (by omega)]
  simp only [Option.map_map]
  rfl

theorem nibble_hexLow {n : Nat} (h : n < 16) : nibble (hexLow n) = some n := by
  have : ∀ n, n < 16 → nibble (hexLow n) = some n := by decide
  exact this n h

theorem clean_escByte (short : Bool) (b : UInt8) (h : b.toNat < 0x80) : Clean (escByte short b) := by
  unfold escByte
  split
  · rename_i hb
    refine clean_short ?_
    rcases (by simpa using hb : b = 0x22 ∨ b = 0x5C) with rfl | rfl <;> decide
  · rename_i hb
    split
    · exact clean_short (by decide)
    · split
      · exact clean_short (by decide)
      · split
        · exact clean_short (by decide)
        · split
          · exact clean_short (by decide)
          · split
            · exact clean_short (by decide)
            · split
              · refine clean_unicode (by decide) (by decide) ?_ ?_
                · rw [nibble_hexLow (by omega)]; rfl
                · rw [nibble_hexLow (by omega)]; rfl
              · rename_i hc
                simp only [Bool.or_eq_true, decide_eq_true_eq, not_or] at hb hc
                exact Clean.byte hb.1 hc.1.1.1 hb.2

/-- The bytes of a well-formed sequence: how many there are, that they are not ASCII, and that what follows does not matter. -/
theorem utf8Size_props {b : UInt8} {r : Bytes} {k : Nat} (h : utf8Size (b :: r) = some k) :
    0 < k ∧ k ≤ (b :: r).length ∧ (¬ b.toNat < 0x80 → ∀ c ∈ (b :: r).take k, 0x80 ≤ c.toNat) ∧
      ∀ t, utf8Size ((b :: r).take k ++ t) = some k := by
  unfold utf8Size at h
  dsimp only at h
  split at h
  · rename_i h1
    injection h with h; subst h
    refine ⟨by omega, by simp, fun hn => absurd h1 hn, fun t => ?_⟩
    simp only [List.take_succ_cons, List.take_zero, List.cons_append, List.nil_append, utf8Size]
    rw [if_pos h1]
  · rename_i h1
    split at h
    · cases h
    · rename_i h2
      split at h
      · rename_i h3
        split at h
        · rename_i c r'
          split at h
          · rename_i h4
            injection h with h; subst h
            have h4' := h4
            simp only [utf8Accept, Bool.and_eq_true, decide_eq_true_eq] at h4'
            refine ⟨by omega, by simp, fun _ x hx => ?_, fun t => ?_⟩
            · simp only [List.take_succ_cons, List.take_zero, List.mem_cons, List.not_mem_nil, or_false] at hx
              rcases hx with rfl | rfl <;> omega
            · simp only [List.take_succ_cons, List.take_zero, List.cons_append, List.nil_append, utf8Size]
              rw [if_neg h1, if_neg h2, if_pos h3, if_pos h4]
          · cases h
        · cases h
      · rename_i h3
        split at h
        · rename_i h4
          split at h
          · rename_i c d r'
            by_cases h5 : (utf8Accept (if b.toNat = 0xE0 then 0xA0 else 0x80) (if b.toNat = 0xED then 0x9F else 0xBF) c && utf8Accept 0x80 0xBF d) = true
            · rw [if_pos h5] at h
              injection h with h; subst h
              have h5' := h5
              simp only [utf8Accept, Bool.and_eq_true, decide_eq_true_eq] at h5'
              refine ⟨by omega, by simp, fun _ x hx => ?_, fun t => ?_⟩
              · simp only [List.take_succ_cons, List.take_zero, List.mem_cons, List.not_mem_nil, or_false] at hx
                obtain ⟨⟨h6, h7⟩, h8, h9⟩ := h5'
                rcases hx with rfl | rfl | rfl
                · omega
                · split at h6 <;> omega
                · omega
              · simp only [List.take_succ_cons, List.take_zero, List.cons_append, List.nil_append, utf8Size]
                rw [if_neg h1, if_neg h2, if_neg h3, if_pos h4, if_pos h5]
            · rw [if_neg h5] at h; cases h
          · cases h
        · rename_i h4
          split at h
          · rename_i h4'
            split at h
            · rename_i c d e r'
              by_cases h5 : (utf8Accept (if b.toNat = 0xF0 then 0x90 else 0x80) (if b.toNat = 0xF4 then 0x8F else 0xBF) c && utf8Accept 0x80 0xBF d &&
                  utf8Accept 0x80 0xBF e) = true
              · rw [if_pos h5] at h
                injection h with h; subst h
                have h5' := h5
                simp only [utf8Accept, Bool.and_eq_true, decide_eq_true_eq] at h5'
                refine ⟨by omega, by simp, fun _ x hx => ?_, fun t => ?_⟩
                · simp only [List.take_succ_cons, List.take_zero, List.mem_cons, List.not_mem_nil, or_false] at hx
                  obtain ⟨⟨⟨h6, h7⟩, h8, h9⟩, h10, h11⟩ := h5'
                  rcases hx with rfl | rfl | rfl | rfl
                  · omega
                  · split at h6 <;> omega
                  · omega
                  · omega
                · simp only [List.take_succ_cons, List.take_zero, List.cons_append, List.nil_append, utf8Size]
                  rw [if_neg h1, if_neg h2, if_neg h3, if_neg h4, if_pos h4', if_pos h5]
              · rw [if_neg h5] at h; cases h
            · cases h
          · cases h

theorem clean_escRune {s : Bytes} (h : ∀ c ∈ s, 0x80 ≤ c.toNat) : Clean (escRune s) := by
  unfold escRune
  split
  · exact clean_unicode (by decide) (by decide) (by decide) (by decide)
  · split
    · exact clean_unicode (by decide) (by decide) (by decide) (by decide)
    · exact Clean.high h

theorem clean_escAux (short : Bool) (n : Nat) (s : Bytes) : Clean (escAux short n s) := by
  induction n generalizing s with
  | zero => exact Clean.nil
  | succ n ih =>
    cases s with
    | nil => exact Clean.nil
    | cons b r =>
      unfold escAux
      split
      · rename_i h
        exact (clean_escByte short b h).append (ih r)
      · rename_i h
        split
        · rename_i k hk
          exact (clean_escRune ((utf8Size_props hk).2.2.1 h)).append (ih _)
        · exact (clean_unicode (by decide) (by decide) (by decide) (by decide)).append (ih r)

theorem clean_escString (short : Bool) (s : GoStr) : Clean (escString short s) := clean_escAux short _ s

/-- `t` stands for the string `r`. -/
def Means (t r : Bytes) : Prop := ∀ m, t.length ≤ m → unquoteAux m t = some r

theorem Means.nil : Means [] [] := fun m _ => by cases m <;> rfl

theorem means_simple {e v : UInt8} {t r : Bytes} (h : Means t r)
    (he : ∀ n r', unquoteAux (n + 1) (0x5C :: e :: r') = (unquoteAux n r').map (v :: ·)) : Means (0x5C :: e :: t) (v :: r) := by
  intro m hm
  cases m with
  | zero => simp at hm
  | succ m =>
    rw [he, h m (by simp at hm; omega)]
    rfl

theorem means_unicode {a b c d : UInt8} {a' b' c' d' : Nat} {t r : Bytes} (h : Means t r) (ha : nibble a = some a') (hb : nibble b = some b')
    (hc : nibble c = some c') (hd : nibble d = some d') (hs : ¬ (0xD800 ≤ a' * 4096 + b' * 256 + c' * 16 + d' ∧ a' * 4096 + b' * 256 + c' * 16 + d' < 0xE000)) :
    Means (0x5C :: 0x75 :: a :: b :: c :: d :: t) (encodeRune (a' * 4096 + b' * 256 + c' * 16 + d') ++ r) := by
  intro m hm
  cases m with
  | zero => simp at hm
  | succ m =>
    unfold unquoteAux
    rw [if_pos rfl]
    simp only []
    rw [if_neg (by decide), if_neg (by decide), if_neg (by decide), if_neg (by decide), if_neg (by decide), if_neg (by decide)]
    simp only [getu4, ha, hb, hc, hd]
    rw [if_neg hs, h m (by simp at hm; omega)]
    rfl

theorem means_plain {b : UInt8} {t r : Bytes} (h : Means t r) (h1 : b ≠ 0x5C) (h2 : b ≠ 0x22) (h3 : ¬ b.toNat < 0x20) (h4 : b.toNat < 0x80) :
    Means (b :: t) (b :: r) := by
  intro m hm
  cases m with
  | zero => simp at hm
  | succ m =>
    unfold unquoteAux
    rw [if_neg h1, if_neg (by simp [h2, h3]), if_pos h4, h m (by simp at hm; omega)]
    rfl

theorem means_escByte (short : Bool) (b : UInt8) (h : b.toNat < 0x80) {t r : Bytes} (ht : Means t r) : Means (escByte short b ++ t) (b :: r) := by
  unfold escByte
  split
  · rename_i hb
    rcases (by simpa using hb : b = 0x22 ∨ b = 0x5C) with rfl | rfl
    · exact means_simple ht (fun n r' => rfl)
    · exact means_simple ht (fun n r' => rfl)
  · rename_i hb
    split
    · rename_i e; subst e
      exact means_simple ht (fun n r' => rfl)
    · split
      · rename_i e; subst e
        exact means_simple ht (fun n r' => rfl)
      · split
        · rename_i e; subst e
          exact means_simple ht (fun n r' => rfl)
        · split
          · rename_i e
            have e := (by simpa using e : short = true ∧ b = 8).2
            subst e
            exact means_simple ht (fun n r' => rfl)
          · split
            · rename_i e
              have e := (by simpa using e : short = true ∧ b = 12).2
              subst e
              exact means_simple ht (fun n r' => rfl)
            · split
              · have := means_unicode (a := 0x30) (b := 0x30) ht (a' := 0) (b' := 0) (by decide) (by decide)
                  (nibble_hexLow (n := b.toNat / 16) (by omega)) (nibble_hexLow (n := b.toNat % 16) (by omega)) (by omega)
                have e : encodeRune (0 * 4096 + 0 * 256 + b.toNat / 16 * 16 + b.toNat % 16) = [b] := by
                  have e1 : 0 * 4096 + 0 * 256 + b.toNat / 16 * 16 + b.toNat % 16 = b.toNat := by omega
                  rw [e1]
                  unfold encodeRune
                  rw [if_pos h]
                  simp
                rw [e] at this
                exact this
              · rename_i hc
                simp only [Bool.or_eq_true, decide_eq_true_eq, not_or] at hb hc
                exact means_plain ht hb.2 hb.1 hc.1.1.1 h

theorem means_rune {b : UInt8} {r : Bytes} {k : Nat} (h : ¬ b.toNat < 0x80) (hk : utf8Size (b :: r) = some k) {t y : Bytes} (ht : Means t y) :
    Means ((b :: r).take k ++ t) ((b :: r).take k ++ y) := by
  obtain ⟨hpos, hle, hhi, htk⟩ := utf8Size_props hk
  have htk := htk t
  have hl : ((b :: r).take k).length = k := by rw [List.length_take]; omega
  have hb := hhi h b
  cases hx : (b :: r).take k with
  | nil => rw [hx] at hl; simp at hl; omega
  | cons c x =>
    have hcb : c = b := by
      cases k with
      | zero => omega
      | succ k => simp only [List.take_succ_cons, List.cons.injEq] at hx; exact hx.1.symm
    subst hcb
    rw [hx] at htk hl
    intro m hm
    cases m with
    | zero => simp at hm
    | succ m =>
      simp only [List.cons_append] at htk ⊢
      have h5 : c ≠ 0x5C := fun e => by subst e; exact h (by decide)
      have h6 : c ≠ 0x22 := fun e => by subst e; exact h (by decide)
      unfold unquoteAux
      rw [if_neg h5, if_neg (by simp only [Bool.or_eq_true, decide_eq_true_eq, not_or]; exact ⟨h6, by omega⟩), if_neg h, htk]
      simp only []
      have hd : (c :: (x ++ t)).drop k = t := by
        rw [← hl]; exact List.drop_left (l₁ := c :: x) (l₂ := t)
      have htt : (c :: (x ++ t)).take k = c :: x := by
        rw [← hl]; exact List.take_left (l₁ := c :: x) (l₂ := t)
      rw [hd, htt, ht m (by simp at hm; omega)]
      rfl

theorem means_escRune {b : UInt8} {r : Bytes} {k : Nat} (h : ¬ b.toNat < 0x80) (hk : utf8Size (b :: r) = some k) {t y : Bytes} (ht : Means t y) :
    Means (escRune ((b :: r).take k) ++ t) ((b :: r).take k ++ y) := by
  unfold escRune
  split
  · rename_i e
    rw [e]
    exact means_unicode ht (a := 0x32) (b := 0x30) (c := 0x32) (d := 0x38) (a' := 2) (b' := 0) (c' := 2) (d' := 8) (by decide) (by decide) (by decide)
      (by decide) (by decide)
  · split
    · rename_i e
      rw [e]
      exact means_unicode ht (a := 0x32) (b := 0x30) (c := 0x32) (d := 0x39) (a' := 2) (b' := 0) (c' := 2) (d' := 9) (by decide) (by decide) (by decide)
        (by decide) (by decide)
    · exact means_rune h hk ht

theorem means_escAux (short : Bool) (n : Nat) (s : Bytes) : Means (escAux short n s) (jsonStringAux n s) := by
  induction n generalizing s with
  | zero => exact Means.nil
  | succ n ih =>
    cases s with
    | nil => exact Means.nil
    | cons b r =>
      unfold escAux jsonStringAux
      split
      · rename_i h
        have hz : utf8Size (b :: r) = some 1 := by unfold utf8Size; dsimp only; rw [if_pos h]
        rw [hz]
        exact means_escByte short b h (ih r)
      · rename_i h
        cases hk : utf8Size (b :: r) with
        | some k => exact means_escRune h hk (ih _)
        | none =>
          exact means_unicode (ih r) (a := 0x66) (b := 0x66) (c := 0x66) (d := 0x64) (a' := 15) (b' := 15) (c' := 15) (d' := 13) (by decide) (by decide)
            (by decide) (by decide) (by decide)

theorem unquote_escString (short : Bool) (s : GoStr) : unquote (escString short s) = some (jsonString s) :=
  means_escAux short s.length s _ (Nat.le_refl _)

/-! ## Hexadecimal text -/

/-- Characters that need no care inside a string literal. -/
def PlainByte (c : UInt8) : Prop := c ≠ 0x22 ∧ ¬ c.toNat < 0x20 ∧ c ≠ 0x5C

theorem plain_hexLow {n : Nat} (h : n < 16) : PlainByte (hexLow n) := by
  have : ∀ n, n < 16 → hexLow n ≠ 0x22 ∧ ¬ (hexLow n).toNat < 0x20 ∧ hexLow n ≠ 0x5C := by decide
  exact this n h

theorem plain_hexDigits (f n : Nat) : ∀ c ∈ hexDigits f n, PlainByte c := by
  induction f generalizing n with
  | zero => simp [hexDigits]
  | succ f ih =>
    unfold hexDigits
    split
    · rename_i h
      intro c hc
      rw [List.mem_singleton] at hc
      rw [hc]
      exact plain_hexLow h
    · intro c hc
      rcases List.mem_append.mp hc with hc | hc
      · exact ih _ c hc
      · rw [List.mem_singleton] at hc
        rw [hc]
        exact plain_hexLow (Nat.mod_lt _ (by omega))

theorem plain_hexNumber (n : Nat) : ∀ c ∈ hexNumber n, PlainByte c := by
  intro c hc
  simp only [hexNumber, List.mem_cons] at hc
  rcases hc with rfl | rfl | hc
  · exact ⟨by decide, by decide, by decide⟩
  · exact ⟨by decide, by decide, by decide⟩
  · exact plain_hexDigits _ _ c hc

theorem plain_hexBig (n : Int) : ∀ c ∈ hexBig n, PlainByte c := by
  intro c hc
  unfold hexBig at hc
  split at hc
  · rcases List.mem_cons.mp hc with rfl | hc
    · exact ⟨by decide, by decide, by decide⟩
    · exact plain_hexNumber _ c hc
  · exact plain_hexNumber _ c hc

theorem plain_hexBytes (b : Bytes) : ∀ c ∈ hexDataText b, PlainByte c := by
  intro c hc
  simp only [hexDataText, List.mem_cons, List.mem_flatMap] at hc
  rcases hc with rfl | rfl | ⟨x, _, hc⟩
  · exact ⟨by decide, by decide, by decide⟩
  · exact ⟨by decide, by decide, by decide⟩
  · have hx := x.toNat_lt
    simp only [List.not_mem_nil, or_false] at hc
    rcases hc with rfl | rfl
    · exact plain_hexLow (by omega)
    · exact plain_hexLow (by omega)

theorem hexValue_append (acc : Nat) (a b : Bytes) : hexValue acc (a ++ b) = (hexValue acc a).bind (fun v => hexValue v b) := by
  induction a generalizing acc with
  | nil => rfl
  | cons c a ih =>
    simp only [List.cons_append, hexValue]
    cases nibble c with
    | none => rfl
    | some d => exact ih _

theorem hexValue_digits {f n : Nat} (h : n < f) : hexValue 0 (hexDigits f n) = some n := by
  induction f generalizing n with
  | zero => omega
  | succ f ih =>
    unfold hexDigits
    split
    · rename_i hn
      simp only [hexValue, nibble_hexLow hn]
      simp
    · rename_i hn
      rw [hexValue_append, ih (by omega)]
      simp only [Option.bind_some, hexValue, nibble_hexLow (Nat.mod_lt n (by omega : 0 < 16))]
      congr 1
      omega

theorem hexDigits_length {f n k : Nat} (h : n < f) (hk : n < 16 ^ (k + 1)) : (hexDigits f n).length ≤ k + 1 := by
  induction f generalizing n k with
  | zero => omega
  | succ f ih =>
    unfold hexDigits
    split
    · simp
    · rename_i hn
      cases k with
      | zero => omega
      | succ k =>
        have := ih (n := n / 16) (k := k) (by omega) (by rw [Nat.pow_succ] at hk; omega)
        simp only [List.length_append, List.length_cons, List.length_nil]
        omega

theorem hexDigits_ne_nil {f n : Nat} (h : n < f) : hexDigits f n ≠ [] := by
  cases f with
  | zero => omega
  | succ f =>
    unfold hexDigits
    split <;> simp

theorem hexDigits_head {f n : Nat} (h : n < f) (h0 : n ≠ 0) : ∃ d, 0 < d ∧ d < 16 ∧ (hexDigits f n).head? = some (hexLow d) := by
  induction f generalizing n with
  | zero => omega
  | succ f ih =>
    unfold hexDigits
    split
    · exact ⟨n, by omega, by assumption, rfl⟩
    · rename_i hn
      obtain ⟨d, h1, h2, h3⟩ := ih (n := n / 16) (by omega) (by omega)
      refine ⟨d, h1, h2, ?_⟩
      rw [List.head?_append, h3]
      rfl

theorem hexNum_number {max n : Nat} (hm : 0 < max) (h : n < 16 ^ max) : hexNum max (hexNumber n) = some n := by
  unfold hexNum hexNumber
  rw [if_neg (by simp)]
  simp only [strip0x]
  rw [if_pos (by decide)]
  simp only []
  have hne := hexDigits_ne_nil (Nat.lt_succ_self n)
  have hlen : (hexDigits (n + 1) n).length ≤ max := by
    obtain ⟨k, rfl⟩ : ∃ k, max = k + 1 := ⟨max - 1, by omega⟩
    exact hexDigits_length (Nat.lt_succ_self n) h
  rw [if_neg hne, if_neg, if_neg (by omega), hexValue_digits (Nat.lt_succ_self n)]
  rintro ⟨h1, h2⟩
  by_cases h0 : n = 0
  · subst h0; exact absurd h1 (by decide)
  · obtain ⟨d, hd, hd', hh⟩ := hexDigits_head (Nat.lt_succ_self n) h0
    rw [hh] at h2
    have : ∀ d, d < 16 → 0 < d → hexLow d ≠ 0x30 := by decide
    exact this d hd' hd (Option.some.inj h2)

theorem hexPairs_flat (b : Bytes) : hexPairs (b.flatMap (fun x => [hexLow (x.toNat / 16), hexLow (x.toNat % 16)])) = some b := by
  induction b with
  | nil => rfl
  | cons x b ih =>
    have hx := x.toNat_lt
    simp only [List.flatMap_cons, List.cons_append, List.nil_append, hexPairs]
    rw [nibble_hexLow (by omega), nibble_hexLow (by omega), ih]
    simp only [Option.some.injEq, List.cons.injEq, and_true]
    have : x.toNat / 16 * 16 + x.toNat % 16 = x.toNat := by omega
    rw [this]
    simp

theorem hexData_bytes (b : Bytes) : hexData (hexDataText b) = some b := by
  unfold hexData hexDataText
  rw [if_neg (by simp)]
  simp only [strip0x]
  rw [if_pos (by decide)]
  exact hexPairs_flat b

theorem decHash_text (h : Hash) : decHash (.str (hexDataText h.bytes)) = some h := by
  simp only [decHash, hexData_bytes]
  rw [dif_pos h.len]

/-! ## Parsing what was written -/

/-- `t` is the text of `j`. -/
structure Parses (t : Bytes) (j : Json) : Prop where
  head : ∃ c t', t = c :: t' ∧ isWs c = false ∧ c ≠ 0x5D
  value : ∀ n rest, 2 * t.length ≤ n → parseValue n (t ++ rest) = some (j, rest)

theorem skipWs_cons {c : UInt8} (h : isWs c = false) (r : Bytes) : skipWs (c :: r) = c :: r := by
  unfold skipWs
  rw [List.dropWhile_cons, h]
  simp

theorem Parses.quoted {x : Bytes} (h : Clean x) : Parses (quoted x) (.str x) where
  head := ⟨_, _, rfl, by decide, by decide⟩
  value n rest hn := by
    cases n with
    | zero => simp [Verif.quoted] at hn
    | succ n =>
      simp only [Verif.quoted, List.cons_append, List.append_assoc, List.nil_append]
      unfold parseValue
      rw [skipWs_cons (by decide)]
      simp only []
      rw [if_neg (by decide), if_neg (by decide), if_pos trivial, scan_clean h]
      rfl

theorem Parses.plain {x : Bytes} (h : ∀ c ∈ x, PlainByte c) : Parses (Verif.quoted x) (.str x) := Parses.quoted (Clean.bytes h)

theorem Parses.null : Parses nullText .null where
  head := ⟨_, _, rfl, by decide, by decide⟩
  value n rest hn := by
    cases n with
    | zero => simp [nullText] at hn
    | succ n => rfl

theorem Parses.length_pos {t : Bytes} {j : Json} (h : Parses t j) : 0 < t.length := by
  obtain ⟨c, t', rfl, _⟩ := h.head
  simp

theorem elems_text {l : List (Bytes × Json)} (h : ∀ e ∈ l, Parses e.1 e.2) (hl : l ≠ []) (n : Nat) (rest : Bytes)
    (hn : 2 * (commaSep (l.map Prod.fst)).length + 1 ≤ n) :
    parseElems n (commaSep (l.map Prod.fst) ++ 0x5D :: rest) = some (l.map Prod.snd, rest) := by
  induction l generalizing n with
  | nil => exact absurd rfl hl
  | cons e l ih =>
    have he := h e (by simp)
    have hp := he.length_pos
    cases n with
    | zero => omega
    | succ n =>
      cases l with
      | nil =>
        simp only [List.map_cons, List.map_nil, commaSep] at hn ⊢
        unfold parseElems
        rw [he.value n _ (by omega)]
        simp only []
        rw [skipWs_cons (by decide)]
        rfl
      | cons e' l =>
        simp only [List.map_cons, commaSep, List.length_append, List.length_cons] at hn ⊢
        unfold parseElems
        rw [List.append_assoc, he.value n _ (by omega)]
        simp only [List.cons_append]
        rw [skipWs_cons (by decide)]
        simp only []
        have := ih (fun x hx => h x (by simp [hx])) (by simp) n (by simp only [List.map_cons]; omega)
        rw [List.map_cons] at this
        rw [if_pos trivial, this]
        rfl

theorem Parses.arr {l : List (Bytes × Json)} (h : ∀ e ∈ l, Parses e.1 e.2) : Parses (arrText (l.map Prod.fst)) (.arr (l.map Prod.snd)) where
  head := ⟨_, _, rfl, by decide, by decide⟩
  value n rest hn := by
    cases n with
    | zero => simp [arrText] at hn
    | succ n =>
      simp only [arrText, List.cons_append, List.append_assoc, List.nil_append]
      simp only [arrText, List.length_cons, List.length_append, List.length_nil] at hn
      unfold parseValue
      rw [skipWs_cons (by decide)]
      simp only []
      rw [if_neg (by decide), if_pos trivial]
      cases l with
      | nil => rfl
      | cons e l =>
        have he := elems_text h (by simp) n rest (by omega)
        obtain ⟨c, t', e1, e2, e3⟩ := (h e (by simp)).head
        have hc : ∃ u, commaSep ((e :: l).map Prod.fst) ++ 0x5D :: rest = c :: u := by
          cases l with
          | nil => simp only [List.map_cons, List.map_nil, commaSep, e1, List.cons_append]; exact ⟨_, rfl⟩
          | cons e' l => simp only [List.map_cons, commaSep, e1, List.cons_append]; exact ⟨_, rfl⟩
        obtain ⟨u, hu⟩ := hc
        rw [hu] at he ⊢
        rw [skipWs_cons e2]
        simp only []
        rw [if_neg e3, he]
        rfl

/-- A member: the text of its name, its value's text, and what they are. -/
structure Mem where
  raw : Bytes
  text : Bytes
  key : GoStr
  val : Json

/-- The texts belong to what they stand for. -/
structure Mem.Ok (e : Mem) : Prop where
  clean : Clean e.raw
  name : unquote e.raw = some e.key
  val : Parses e.text e.val

theorem members_text {l : List Mem} (h : ∀ e ∈ l, e.Ok) (hl : l ≠ []) (n : Nat) (rest : Bytes)
    (hn : 2 * (commaSep (l.map (fun e => memText (e.raw, e.text)))).length ≤ n) :
    parseMembers n (commaSep (l.map (fun e => memText (e.raw, e.text))) ++ 0x7D :: rest) = some (l.map (fun e => (e.key, e.val)), rest) := by
  induction l generalizing n with
  | nil => exact absurd rfl hl
  | cons e l ih =>
    have he := h e (by simp)
    have hp := he.val.length_pos
    cases n with
    | zero =>
      cases l with
      | nil => simp [commaSep, memText, quoted] at hn
      | cons e' l => simp [commaSep, memText, quoted] at hn
    | succ n =>
      cases l with
      | nil =>
        simp only [List.map_cons, List.map_nil, commaSep, memText, quoted, List.length_append, List.length_cons, List.length_nil] at hn
        simp only [List.map_cons, List.map_nil, commaSep, memText, quoted, List.cons_append, List.append_assoc, List.nil_append]
        unfold parseMembers
        rw [skipWs_cons (by decide)]
        simp only []
        rw [if_pos trivial, scan_clean he.clean]
        simp only []
        rw [skipWs_cons (by decide), he.name]
        simp only []
        rw [he.val.value n _ (by omega)]
        simp only []
        rw [skipWs_cons (by decide)]
        rfl
      | cons e' l =>
        simp only [List.map_cons, commaSep, memText, quoted, List.length_append, List.length_cons, List.length_nil] at hn
        have := ih (fun x hx => h x (by simp [hx])) (by simp) n (by
          simp only [List.map_cons, memText, quoted]
          simp only [List.cons_append, List.append_assoc, List.nil_append] at hn ⊢
          omega)
        simp only [List.map_cons] at this ⊢
        rw [commaSep]
        generalize commaSep (memText (e'.raw, e'.text) :: l.map (fun e => memText (e.raw, e.text))) = u at this ⊢
        simp only [memText, quoted, List.cons_append, List.append_assoc, List.nil_append]
        unfold parseMembers
        rw [skipWs_cons (by decide)]
        simp only []
        rw [if_pos trivial, scan_clean he.clean]
        simp only []
        rw [skipWs_cons (by decide), he.name]
        simp only []
        rw [he.val.value n _ (by omega)]
        simp only []
        rw [skipWs_cons (by decide)]
        simp only []
        rw [if_pos trivial, this]
        rfl

theorem Parses.obj {l : List Mem} (h : ∀ e ∈ l, e.Ok) : Parses (objText (l.map (fun e => (e.raw, e.text)))) (.obj (l.map (fun e => (e.key, e.val)))) where
  head := ⟨_, _, rfl, by decide, by decide⟩
  value n rest hn := by
    cases n with
    | zero => simp [objText] at hn
    | succ n =>
      simp only [objText, List.map_map, List.cons_append, List.append_assoc, List.nil_append]
      simp only [objText, List.map_map, List.length_cons, List.length_append, List.length_nil] at hn
      unfold parseValue
      rw [skipWs_cons (by decide)]
      simp only []
      rw [if_pos trivial]
      cases l with
      | nil => rfl
      | cons e l =>
        have he := members_text h (by simp) n rest (by
          have : (fun e : Mem => memText (e.raw, e.text)) = memText ∘ (fun e : Mem => (e.raw, e.text)) := rfl
          rw [this]; omega)
        have hc : ∃ u, commaSep ((e :: l).map (fun e => memText (e.raw, e.text))) ++ 0x7D :: rest = 0x22 :: u := by
          cases l with
          | nil => simp only [List.map_cons, List.map_nil, commaSep, memText]; exact ⟨_, rfl⟩
          | cons e' l => simp only [List.map_cons, commaSep, memText]; exact ⟨_, rfl⟩
        obtain ⟨u, hu⟩ := hc
        have : (fun e : Mem => memText (e.raw, e.text)) = memText ∘ (fun e : Mem => (e.raw, e.text)) := rfl
        rw [this] at hu he
        rw [hu] at he ⊢
        rw [skipWs_cons (by decide)]
        simp only []
        rw [if_neg (by decide), he]
        rfl

theorem Parses.parse {t : Bytes} {j : Json} (h : Parses t j) : parseJson t = some j := by
  have := h.value (2 * t.length + 2) [] (by omega)
  rw [List.append_nil] at this
  unfold parseJson
  rw [this]
  rfl

end Verif
