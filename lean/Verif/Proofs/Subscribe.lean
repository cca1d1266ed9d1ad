import Verif.Spec.Subscribe
import Verif.Proofs.JsonMessage
/-!
# The answer to a subscription request
-/
namespace Verif
open Spec

/-! ## Values and their text -/

theorem members_values : ∀ {s : Bytes} {l : List (GoStr × Json)}, MembersText True s l → ∀ e ∈ l, ∃ t, ValueText True t e.2
  | _, _, .one _ _ _ _ h _, e, he => by
    rw [List.mem_singleton.mp he]
    exact ⟨_, h⟩
  | _, _, .more _ _ _ _ h _ h', e, he => by
    rcases List.mem_cons.mp he with rfl | he
    · exact ⟨_, h⟩
    · exact members_values h' e he

theorem object_values {m : Bytes} {l : List (GoStr × Json)} (h : JsonText True m (.obj l)) : ∀ e ∈ l, ∃ t, ValueText True t e.2 := by
  obtain ⟨w, t, w', -, h, -, -⟩ := h
  cases h with
  | obj h => exact members_values h
  | noMembers h => simp

theorem value_json {t : Bytes} {j : Json} (h : ValueText True t j) : JsonText True t j :=
  ⟨[], t, [], by simp [Blank], h, by simp [Blank], by simp⟩

theorem plainText_of {t : Bytes} {j : Json} (h : ValueText True t j) (hp : Plain j) : j.plainText = some t := by
  cases h with
  | null => simp only [Json.plainText, str_null]; rfl
  | yes => rfl
  | no => rfl
  | num _ => rfl
  | str _ => simp only [Json.plainText, quoted, str_quote]; simp
  | arr _ => exact hp.elim
  | noElems _ => exact hp.elim
  | obj _ => exact hp.elim
  | noMembers _ => exact hp.elim

theorem plain_of {j : Json} {t : Bytes} (h : j.plainText = some t) : Plain j := by
  cases j <;> first | trivial | cases h

/-- Comparing the texts of two values is comparing the values. -/
theorem plainText_eq {id t : Bytes} {c j : Json} (hc : ValueText True id c) (hp : Plain c) (hj : ValueText True t j) : j.plainText = some id ↔ j = c := by
  constructor
  · intro h
    have h' := plainText_of hj (plain_of h)
    rw [h] at h'
    injection h' with h'
    subst h'
    have h1 := parseJson_iff.mpr (value_json hj)
    rw [parseJson_iff.mpr (value_json hc)] at h1
    injection h1 with h1
    exact h1.symm
  · rintro rfl
    exact plainText_of hc hp

/-! ## The members -/

theorem lastNamed_nil (name : String) (j : Json) : ¬ Last [] name j := by
  rintro ⟨a, key, b, h, -, -⟩
  cases a <;> simp at h

theorem lastNamed_snoc {l : List (GoStr × Json)} {e : GoStr × Json} {name : String} {j : Json} :
    Last (l ++ [e]) name j ↔ Spelled e.1 (str name) ∧ e.2 = j ∨ ¬ Spelled e.1 (str name) ∧ Last l name j := by
  constructor
  · rintro ⟨a, key, b, h, hs, hb⟩
    rcases List.eq_nil_or_concat b with rfl | ⟨b', x, rfl⟩
    · obtain ⟨-, h2⟩ := List.append_inj' h rfl
      injection h2 with h2
      subst h2
      exact .inl ⟨hs, rfl⟩
    · rw [List.concat_eq_append, ← List.cons_append, ← List.append_assoc] at h
      obtain ⟨h1, h2⟩ := List.append_inj' h rfl
      injection h2 with h2
      subst h2
      exact .inr ⟨hb _ (by simp), a, key, b', h1, hs, fun e he => hb e (by simp [he])⟩
  · rintro (⟨hs, rfl⟩ | ⟨hs, a, key, b, rfl, h, hb⟩)
    · exact ⟨l, e.1, [], by simp, hs, by simp⟩
    · refine ⟨a, key, b ++ [e], by simp, h, fun x hx => ?_⟩
      rcases List.mem_append.mp hx with hx | hx
      · exact hb x hx
      · rw [List.mem_singleton.mp hx]; exact hs

theorem lastNamed_unique {l : List (GoStr × Json)} {name : String} {j j' : Json} (h : Last l name j) (h' : Last l name j') : j = j' := by
  rcases List.eq_nil_or_concat l with rfl | ⟨l', x, rfl⟩
  · exact (lastNamed_nil _ _ h).elim
  · suffices ∀ n (l : List (GoStr × Json)), l.length ≤ n → Last l name j → Last l name j' → j = j' from this _ _ (Nat.le_refl _) h h'
    intro n
    induction n with
    | zero =>
      intro l hl h
      cases l with
      | nil => exact (lastNamed_nil _ _ h).elim
      | cons a l => simp at hl
    | succ n ih =>
      intro l hl h h'
      rcases List.eq_nil_or_concat l with rfl | ⟨l, x, rfl⟩
      · exact (lastNamed_nil _ _ h).elim
      · rw [List.concat_eq_append, lastNamed_snoc] at h h'
        rcases h with ⟨a, rfl⟩ | ⟨a, h⟩ <;> rcases h' with ⟨b, e⟩ | ⟨b, h'⟩
        · exact e
        · exact absurd a b
        · exact absurd b a
        · exact ih l (by simpa using hl) h h'

/-- What has been decoded after some members. -/
structure Decoded (lib : AnswerLib) (l : List (GoStr × Json)) (a : JAnswer) : Prop where
  id : ∀ j, a.id = some j ↔ Last l "id" j
  result : ∀ j, a.result = some j ↔ Last l "result" j
  failed : a.failed = false ↔ (∀ e ∈ l, Spelled e.1 (str "jsonrpc") → e.2 = .null ∨ ∃ raw, e.2 = .str raw) ∧
    (∀ e ∈ l, Spelled e.1 (str "result") → (∃ raw, e.2 = .str raw) ∨ lib.result e.2 = true) ∧ ∀ e ∈ l, Spelled e.1 (str "error") → lib.error e.2 = true

theorem all_snoc {α : Type} {l : List α} {x : α} {p : α → Prop} : (∀ e ∈ l ++ [x], p e) ↔ (∀ e ∈ l, p e) ∧ p x := by
  constructor
  · exact fun h => ⟨fun e he => h e (by simp [he]), h x (by simp)⟩
  · rintro ⟨h1, h2⟩ e he
    rcases List.mem_append.mp he with he | he
    · exact h1 e he
    · rw [List.mem_singleton.mp he]; exact h2

theorem decoded_step {lib : AnswerLib} {l : List (GoStr × Json)} {a : JAnswer} (h : Decoded lib l a) (e : GoStr × Json) : Decoded lib (l ++ [e]) (a.member lib e.1 e.2) := by
  have f1 := isField_iff (name := "jsonrpc") (by decide +kernel) (key := e.1)
  have f2 := isField_iff (name := "id") (by decide +kernel) (key := e.1)
  have f3 := isField_iff (name := "result") (by decide +kernel) (key := e.1)
  have f4 := isField_iff (name := "error") (by decide +kernel) (key := e.1)
  obtain ⟨h1, h2, h3⟩ := h
  obtain ⟨k, j⟩ := e
  simp only [] at f1 f2 f3 f4
  unfold JAnswer.member
  by_cases c1 : isField "jsonrpc" k = true
  · have n2 := field_unique c1 (b := "id") (by decide +kernel)
    have n3 := field_unique c1 (b := "result") (by decide +kernel)
    have n4 := field_unique c1 (b := "error") (by decide +kernel)
    have g1 := f1.mp c1
    have g2 : ¬ Spelled k (str "id") := fun x => by rw [f2.mpr x] at n2; cases n2
    have g3 : ¬ Spelled k (str "result") := fun x => by rw [f3.mpr x] at n3; cases n3
    have g4 : ¬ Spelled k (str "error") := fun x => by rw [f4.mpr x] at n4; cases n4
    simp only [c1, if_true]
    have key : ∀ b, (b.id = a.id) → (b.result = a.result) → (b.failed = false ↔ a.failed = false ∧ (j = .null ∨ ∃ raw, j = .str raw)) → Decoded lib (l ++ [(k, j)]) b := by
      intro b e1 e2 e3
      refine ⟨fun x => ?_, fun x => ?_, ?_⟩
      · rw [e1, h1, lastNamed_snoc]; simp [g2]
      · rw [e2, h2, lastNamed_snoc]; simp [g3]
      · rw [e3, h3, all_snoc, all_snoc, all_snoc]
        simp only [g1, g3, g4, true_implies, false_implies, and_true]
        exact ⟨fun ⟨⟨x, y, z⟩, w⟩ => ⟨⟨x, w⟩, y, z⟩, fun ⟨⟨x, w⟩, y, z⟩ => ⟨⟨x, y, z⟩, w⟩⟩
    cases j with
    | null => exact key a rfl rfl (by simp)
    | str r => exact key a rfl rfl (by simp)
    | bool b => exact key _ rfl rfl (by simp)
    | num b => exact key _ rfl rfl (by simp)
    | arr b => exact key _ rfl rfl (by simp)
    | obj b => exact key _ rfl rfl (by simp)
  · have g1 : ¬ Spelled k (str "jsonrpc") := fun x => c1 (f1.mpr x)
    rw [if_neg c1]
    by_cases c2 : isField "id" k = true
    · have n3 := field_unique c2 (b := "result") (by decide +kernel)
      have n4 := field_unique c2 (b := "error") (by decide +kernel)
      have g2 := f2.mp c2
      have g3 : ¬ Spelled k (str "result") := fun x => by rw [f3.mpr x] at n3; cases n3
      have g4 : ¬ Spelled k (str "error") := fun x => by rw [f4.mpr x] at n4; cases n4
      rw [if_pos c2]
      refine ⟨fun x => ?_, fun x => ?_, ?_⟩
      · rw [lastNamed_snoc]; simp [g2]
      · rw [h2, lastNamed_snoc]; simp [g3]
      · rw [h3, all_snoc, all_snoc, all_snoc]
        simp [g1, g3, g4]
    · have g2 : ¬ Spelled k (str "id") := fun x => c2 (f2.mpr x)
      rw [if_neg c2]
      by_cases c3 : isField "result" k = true
      · have n4 := field_unique c3 (b := "error") (by decide +kernel)
        have g3 := f3.mp c3
        have g4 : ¬ Spelled k (str "error") := fun x => by rw [f4.mpr x] at n4; cases n4
        rw [if_pos c3]
        have key : ∀ b, (b.id = a.id) → (b.result = some j) → (b.failed = false ↔ a.failed = false ∧ ((∃ raw, j = .str raw) ∨ lib.result j = true)) →
            Decoded lib (l ++ [(k, j)]) b := by
          intro b e1 e2 e3
          refine ⟨fun x => ?_, fun x => ?_, ?_⟩
          · rw [e1, h1, lastNamed_snoc]; simp [g2]
          · rw [e2, lastNamed_snoc]; simp [g3]
          · rw [e3, h3, all_snoc, all_snoc, all_snoc]
            simp only [g1, g3, g4, true_implies, false_implies, and_true]
            exact ⟨fun ⟨⟨x, y, z⟩, w⟩ => ⟨x, ⟨y, w⟩, z⟩, fun ⟨x, ⟨y, w⟩, z⟩ => ⟨⟨x, y, z⟩, w⟩⟩
        cases j with
        | str r => exact key _ rfl rfl (by simp)
        | null => exact key _ rfl rfl (by simp)
        | bool b => exact key _ rfl rfl (by simp)
        | num b => exact key _ rfl rfl (by simp)
        | arr b => exact key _ rfl rfl (by simp)
        | obj b => exact key _ rfl rfl (by simp)
      · have g3 : ¬ Spelled k (str "result") := fun x => c3 (f3.mpr x)
        rw [if_neg c3]
        by_cases c4 : isField "error" k = true
        · have g4 := f4.mp c4
          rw [if_pos c4]
          refine ⟨fun x => ?_, fun x => ?_, ?_⟩
          · simp only []; rw [h1, lastNamed_snoc]; simp [g2]
          · simp only []; rw [h2, lastNamed_snoc]; simp [g3]
          · rw [Bool.or_eq_false_iff, h3, all_snoc, all_snoc, all_snoc]
            simp only [g1, g3, g4, true_implies, false_implies, and_true, Bool.not_eq_false']
            exact ⟨fun ⟨⟨x, y, z⟩, w⟩ => ⟨x, y, z, w⟩, fun ⟨x, y, z, w⟩ => ⟨⟨x, y, z⟩, w⟩⟩
        · have g4 : ¬ Spelled k (str "error") := fun x => c4 (f4.mpr x)
          rw [if_neg c4]
          refine ⟨fun x => ?_, fun x => ?_, ?_⟩
          · rw [h1, lastNamed_snoc]; simp [g2]
          · rw [h2, lastNamed_snoc]; simp [g3]
          · rw [h3, all_snoc, all_snoc, all_snoc]; simp [g1, g3, g4]

theorem decoded_all (lib : AnswerLib) (l : List (GoStr × Json)) : Decoded lib l (l.foldl (fun a e => a.member lib e.1 e.2) JAnswer.zero) := by
  suffices ∀ (l2 l1 : List (GoStr × Json)) a, Decoded lib l1 a → Decoded lib (l1 ++ l2) (l2.foldl (fun a e => a.member lib e.1 e.2) a) from by
    have := this l [] JAnswer.zero ⟨fun j => by simp [JAnswer.zero, lastNamed_nil], fun j => by simp [JAnswer.zero, lastNamed_nil], by simp [JAnswer.zero]⟩
    simpa using this
  intro l2
  induction l2 with
  | nil => intro l1 a h; simpa using h
  | cons e l2 ih =>
    intro l1 a h
    have := ih (l1 ++ [e]) _ (decoded_step h e)
    simpa using this

theorem decodeUint64_iff {k : GoStr} {n : Nat} : decodeUint64 k = some n ↔ SubId k n := by
  unfold decodeUint64 SubId
  constructor
  · intro h
    split at h
    · cases h
    · rename_i hk
      rcases hexNum_iff.mp h with ⟨h1, -⟩ | h1
      · exact absurd h1 hk
      · exact h1
  · intro h
    have h' := hexNum_iff.mpr (show NumberOf 16 k n from .inr h)
    obtain ⟨p, ds, rfl, hp, -⟩ := h
    rw [if_neg (strip_prefix hp ds).1]
    exact h'

theorem answered_iff {lib : AnswerLib} {id : Bytes} {c : Json} (hc : ValueText True id c) (hp : Plain c) {m : Bytes} {n : Nat} :
    answered lib id m = some n ↔ IsAnswer lib c m n := by
  unfold answered readAnswer IsAnswer
  cases hm : parseJson m with
  | none =>
    simp only []
    exact ⟨fun h => (by cases h), fun ⟨l, h, _⟩ => (by rw [parseJson_iff.mpr h] at hm; cases hm)⟩
  | some j =>
    have hno : (∀ l, j ≠ .obj l) → ¬ ∃ l, JsonText True m (.obj l) ∧ Answer lib c l n := by
      rintro hj ⟨l, h, -⟩
      rw [parseJson_iff.mpr h] at hm
      injection hm with hm
      exact hj l hm.symm
    cases j with
    | obj l =>
      have hl := parseJson_iff.mp hm
      have hd := decoded_all lib l
      simp only []
      generalize l.foldl (fun a e => a.member lib e.1 e.2) JAnswer.zero = a at hd
      have huniq : ∀ l', JsonText True m (.obj l') → l' = l := fun l' h => by
        rw [parseJson_iff.mpr h] at hm
        injection hm with hm
        injection hm
      constructor
      · intro h
        split at h
        · cases h
        · rename_i b hb
          split at hb
          · cases hb
          · rename_i hf
            injection hb with hb
            subst hb
            have hf : a.failed = false := by simpa using hf
            split at h
            · rename_i hi
              split at h
              · rename_i raw hr
                split at h
                · rename_i k hk
                  refine ⟨l, hl, ?_, ?_, (hd.failed.mp hf).1, (hd.failed.mp hf).2.1, (hd.failed.mp hf).2.2⟩
                  · cases hai : a.id with
                    | none => rw [hai] at hi; cases hi
                    | some x =>
                      rw [hai] at hi
                      have hx := (hd.id x).mp hai
                      obtain ⟨p, key, q, e, -, -⟩ := _root_.id hx
                      obtain ⟨t, ht⟩ := object_values hl (key, x) (by rw [e]; simp)
                      exact (plainText_eq hc hp ht).mp hi ▸ hx
                  · have hx := (hd.result _).mp hr
                    obtain ⟨p, key, q, e, -, -⟩ := _root_.id hx
                    obtain ⟨t, ht⟩ := object_values hl (key, _) (by rw [e]; exact List.mem_append_right _ (List.mem_cons_self))
                    cases ht with
                    | str ht =>
                      rename_i k' 
                      rw [unquote_text ht] at hk
                      injection hk with hk
                      subst hk
                      exact ⟨raw, _, hx, ht, decodeUint64_iff.mp h⟩
                · cases h
              · cases h
            · cases h
      · rintro ⟨l', hl', ha⟩
        have := huniq l' hl'
        subst this
        obtain ⟨h1, ⟨raw, k, h2, h3, h4⟩, h5, h6, h7⟩ := ha
        have hf := hd.failed.mpr ⟨h5, h6, h7⟩
        rw [if_neg (by simp [hf])]
        simp only [(hd.id c).mpr h1, (hd.result _).mpr h2, Option.bind_some, plainText_of hc hp, if_true, unquote_text h3]
        exact decodeUint64_iff.mpr h4
    | null =>
      simp only []
      refine ⟨fun h => ?_, fun h => absurd h (hno (by simp))⟩
      rw [if_neg (by simp [JAnswer.zero])] at h
      cases h
    | bool b => exact ⟨fun h => (by cases h), fun h => absurd h (hno (by simp))⟩
    | num b => exact ⟨fun h => (by cases h), fun h => absurd h (hno (by simp))⟩
    | str b => exact ⟨fun h => (by cases h), fun h => absurd h (hno (by simp))⟩
    | arr b => exact ⟨fun h => (by cases h), fun h => absurd h (hno (by simp))⟩

theorem await_iff {lib : AnswerLib} {id : Bytes} {ms rest : List Bytes} {n : Nat} :
    awaitAnswer lib id ms = some (n, rest) ↔ ∃ a m, ms = a ++ m :: rest ∧ answered lib id m = some n ∧ ∀ x ∈ a, answered lib id x = none := by
  induction ms with
  | nil =>
    refine ⟨fun h => (by cases h), ?_⟩
    rintro ⟨a, m, h, -⟩
    cases a <;> simp at h
  | cons m ms ih =>
    rw [awaitAnswer]
    cases hm : answered lib id m with
    | some k =>
      simp only [Option.some.injEq, Prod.mk.injEq]
      constructor
      · rintro ⟨rfl, rfl⟩
        exact ⟨[], m, rfl, hm, by simp⟩
      · rintro ⟨a, m', h, h1, h2⟩
        cases a with
        | nil =>
          simp only [List.nil_append, List.cons.injEq] at h
          obtain ⟨rfl, rfl⟩ := h
          rw [hm] at h1
          injection h1 with h1
          exact ⟨h1, rfl⟩
        | cons x a =>
          simp only [List.cons_append, List.cons.injEq] at h
          obtain ⟨rfl, rfl⟩ := h
          have := h2 m (by simp)
          rw [hm] at this
          cases this
    | none =>
      simp only []
      rw [ih]
      constructor
      · rintro ⟨a, m', rfl, h1, h2⟩
        refine ⟨m :: a, m', rfl, h1, fun x hx => ?_⟩
        rcases List.mem_cons.mp hx with rfl | hx
        · exact hm
        · exact h2 x hx
      · rintro ⟨a, m', h, h1, h2⟩
        cases a with
        | nil =>
          simp only [List.nil_append, List.cons.injEq] at h
          obtain ⟨rfl, rfl⟩ := h
          rw [hm] at h1
          cases h1
        | cons x a =>
          simp only [List.cons_append, List.cons.injEq] at h
          obtain ⟨rfl, rfl⟩ := h
          exact ⟨a, m', rfl, h1, fun x hx => h2 x (by simp [hx])⟩

/-! ## Text that is written -/

theorem ascii_text {x : Bytes} (h : ∀ c ∈ x, PlainByte c ∧ c.toNat < 0x80) : StringText True x x := by
  induction x with
  | nil => exact .nil
  | cons b x ih =>
    obtain ⟨⟨h1, h2, h3⟩, h4⟩ := h b (by simp)
    obtain ⟨c, hc⟩ := char_exists (v := b.toNat) (.inl (by omega))
    have he : String.utf8EncodeChar c = [b] := by
      rw [encode_eq, hc, encodeRune, if_pos (by omega), UInt8.ofNat_toNat]
    have hne : ∀ v : UInt8, b ≠ v → c.toNat ≠ v.toNat := fun v hv e => hv (UInt8.toNat_inj.mp (hc.symm.trans e))
    have := StringText.char (lenient := True) (c := c) (by omega) (hne 0x22 h1) (hne 0x5C h3) (ih (fun c hc => h c (by simp [hc])))
    rwa [he] at this

theorem ascii_hexLow {n : Nat} (h : n < 16) : (hexLow n).toNat < 0x80 := by
  have : ∀ n < 16, (hexLow n).toNat < 0x80 := by decide
  exact this n h

theorem ascii_hexDigits (f n : Nat) : ∀ c ∈ hexDigits f n, c.toNat < 0x80 := by
  induction f generalizing n with
  | zero => intro c hc; cases hc
  | succ f ih =>
    intro c hc
    rw [hexDigits] at hc
    split at hc
    · rename_i hn
      rw [List.mem_singleton.mp hc]
      exact ascii_hexLow hn
    · rcases List.mem_append.mp hc with hc | hc
      · exact ih _ c hc
      · rw [List.mem_singleton.mp hc]
        exact ascii_hexLow (Nat.mod_lt _ (by decide))

theorem number_text (n : Nat) : StringText True (hexNumber n) (hexNumber n) := by
  refine ascii_text (fun c hc => ⟨plain_hexNumber n c hc, ?_⟩)
  simp only [hexNumber, List.mem_cons] at hc
  rcases hc with rfl | rfl | hc
  · decide
  · decide
  · exact ascii_hexDigits _ _ c hc

theorem data_text (b : Bytes) : StringText True (hexDataText b) (hexDataText b) := by
  refine ascii_text (fun c hc => ⟨plain_hexBytes b c hc, ?_⟩)
  simp only [hexDataText, List.mem_cons, List.mem_flatMap, List.not_mem_nil, or_false] at hc
  rcases hc with rfl | rfl | ⟨x, -, rfl | rfl⟩
  · decide
  · decide
  · exact ascii_hexLow (by have := x.toNat_lt; omega)
  · exact ascii_hexLow (Nat.mod_lt _ (by decide))

theorem blank_nil : Blank [] := by simp [Blank]

/-- The last of the members that are written. -/
theorem written_one {raw t : Bytes} {k : GoStr} {j : Json} (hr : StringText True raw k) (ht : ValueText True t j) :
    MembersText True (commaSep [memText (raw, t)]) [(k, j)] := by
  have := MembersText.one blank_nil hr blank_nil blank_nil ht blank_nil
  simp only [str_quote, str_colon] at this
  simpa [commaSep, memText, quoted] using this

/-- One of the members that are written, and the others. -/
theorem written_more {raw t : Bytes} {k : GoStr} {j : Json} {x : Bytes} {xs : List Bytes} {l : List (GoStr × Json)} (hr : StringText True raw k) (ht : ValueText True t j)
    (h : MembersText True (commaSep (x :: xs)) l) : MembersText True (commaSep (memText (raw, t) :: x :: xs)) ((k, j) :: l) := by
  have := MembersText.more blank_nil hr blank_nil blank_nil ht blank_nil h
  simp only [str_quote, str_colon, str_comma] at this
  simpa [commaSep, memText, quoted] using this

theorem written_obj {l : List (Bytes × Bytes)} {o : List (GoStr × Json)} (h : MembersText True (commaSep (l.map memText)) o) : ValueText True (objText l) (.obj o) := by
  have := ValueText.obj h
  simp only [str_lbrace, str_rbrace] at this
  simpa [objText] using this

theorem written_str {raw : Bytes} {k : GoStr} (h : StringText True raw k) : ValueText True (quoted raw) (.str raw) := by
  have := ValueText.str h
  simp only [str_quote] at this
  simpa [quoted] using this

theorem name_text {s : String} (h : ∀ c ∈ str s, PlainByte c ∧ c.toNat < 0x80) : StringText True (str s) (str s) := ascii_text h

theorem answer_text {id : Bytes} {c : Json} (hc : ValueText True id c) (n : Nat) :
    JsonText True (answerText id n) (.obj [(str "jsonrpc", .str (str "2.0")), (str "id", c), (str "result", .str (hexNumber n))]) :=
  value_json (written_obj (written_more (name_text (by decide +kernel)) (written_str (name_text (by decide +kernel)))
    (written_more (name_text (by decide +kernel)) hc (written_one (name_text (by decide +kernel)) (written_str (number_text n))))))

theorem elems_written3 {a b c : Bytes} {x y z : Json} (ha : ValueText True a x) (hb : ValueText True b y) (hc : ValueText True c z) :
    ValueText True (arrText [a, b, c]) (.arr [x, y, z]) := by
  have := ValueText.arr (ElemsText.more blank_nil ha blank_nil (ElemsText.more blank_nil hb blank_nil (ElemsText.one blank_nil hc blank_nil)))
  simp only [str_open, str_close, str_comma] at this
  simpa [arrText, commaSep] using this

theorem request_text {id : Bytes} {c : Json} (hc : ValueText True id c) (n : Nat) (h : Hash) :
    JsonText True (requestText id n h) (.obj [(str "jsonrpc", .str (str "2.0")), (str "id", c), (str "method", .str (str "cardinal_subscribe")),
      (str "params", .arr [.str (str "streams"), .str (hexNumber n), .str (hexDataText h.bytes)])]) :=
  value_json (written_obj (written_more (name_text (by decide +kernel)) (written_str (name_text (by decide +kernel)))
    (written_more (name_text (by decide +kernel)) hc
      (written_more (name_text (by decide +kernel)) (written_str (name_text (by decide +kernel)))
        (written_one (name_text (by decide +kernel))
          (elems_written3 (written_str (name_text (by decide +kernel))) (written_str (number_text n)) (written_str (data_text h.bytes))))))))

theorem note_text {t : Bytes} {j : Json} (ht : ValueText True t j) (n : Nat) :
    JsonText True (noteText n t) (.obj [(str "jsonrpc", .str (str "2.0")), (str "method", .str (str "cardinal_subscribe")),
      (str "params", .obj [(str "subscription", .str (hexNumber n)), (str "result", j)])]) :=
  value_json (written_obj (written_more (name_text (by decide +kernel)) (written_str (name_text (by decide +kernel)))
    (written_more (name_text (by decide +kernel)) (written_str (name_text (by decide +kernel)))
      (written_one (name_text (by decide +kernel))
        (written_obj (written_more (name_text (by decide +kernel)) (written_str (number_text n)) (written_one (name_text (by decide +kernel)) ht)))))))

/-! ## An answer in the read loop -/

theorem quiet_members {l : List (GoStr × Json)} (h1 : Lacks l "method") (h2 : Lacks l "params") (n : JNote) :
    (putMembers JNote.member n l).1.method = n.method ∧ (putMembers JNote.member n l).1.id = n.id ∧ (putMembers JNote.member n l).1.result = n.result := by
  induction l generalizing n with
  | nil => exact ⟨rfl, rfl, rfl⟩
  | cons e l ih =>
    have hm : isField "method" e.1 ≠ true := fun h => h1 e (by simp) ((isField_iff (by decide +kernel)).mp h)
    have hp : isField "params" e.1 ≠ true := fun h => h2 e (by simp) ((isField_iff (by decide +kernel)).mp h)
    obtain ⟨v, hv⟩ : ∃ v, JNote.member n e.1 e.2 = ({ n with version := v }, true) := by
      unfold JNote.member
      split
      · exact ⟨_, rfl⟩
      · exact ⟨n.version, rfl⟩
    rw [putMembers, hv]
    exact ih (fun e he => h1 e (by simp [he])) (fun e he => h2 e (by simp [he])) _

end Verif
