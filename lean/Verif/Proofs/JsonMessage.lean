import Verif.Spec.Message
import Verif.Proofs.JsonGrammar
import Verif.Proofs.JsonDecode
/-!
# Decoding a message in any form
-/
namespace Verif
open Spec

/-! ## Names of members -/

/-- A lower-case letter. -/
def LowerByte (c : UInt8) : Prop := 0x61 ≤ c.toNat ∧ c.toNat ≤ 0x7A

instance : DecidablePred LowerByte := fun c => by unfold LowerByte; infer_instance

theorem foldAux_spelled (m : Nat) : ∀ {s n : Bytes}, s.length ≤ m → (∀ c ∈ n, LowerByte c) → (foldAux m s = n ↔ Spelled s n) := by
  induction m with
  | zero =>
    intro s n hl hn
    cases s with
    | cons c s => simp at hl
    | nil =>
      constructor
      · rintro rfl; exact .nil
      · intro h; cases h; rfl
  | succ m ih =>
    intro s n hl hn
    cases s with
    | nil =>
      constructor
      · rintro rfl; exact .nil
      · intro h; cases h; rfl
    | cons c r =>
      have hl' : r.length ≤ m := by simpa using hl
      rw [foldAux]
      constructor
      · intro h
        split at h
        · rename_i hc
          obtain ⟨rfl, hr⟩ := hc
          cases r with
          | nil => cases hr
          | cons d r =>
            cases hr
            cases n with
            | nil => cases h
            | cons e n =>
              injection h with h1 h2
              subst h1
              exact .longS ((ih (by simp at hl'; omega) (fun c hc => hn c (by simp [hc]))).mp h2)
        · split at h
          · rename_i hc
            obtain ⟨rfl, hr⟩ := hc
            cases r with
            | nil => cases hr
            | cons d r =>
              cases r with
              | nil => cases hr
              | cons d' r =>
                have e1 : d = 0x84 := by simp at hr; exact hr.1
                have e2 : d' = 0xAA := by simp at hr; exact hr.2
                subst e1; subst e2
                cases n with
                | nil => cases h
                | cons e n =>
                  injection h with h1 h2
                  subst h1
                  exact .kelvin ((ih (by simp at hl' ⊢; omega) (fun c hc => hn c (by simp [hc]))).mp h2)
          · cases n with
            | nil => cases h
            | cons e n =>
              injection h with h1 h2
              have := (ih hl' (fun c hc => hn c (by simp [hc]))).mp h2
              subst h1
              split
              · rename_i hu
                have hs := Spelled.upper (i := c.toNat - 0x41) (by omega) this
                rwa [show 0x41 + (c.toNat - 0x41) = c.toNat by omega, UInt8.ofNat_toNat, show 0x61 + (c.toNat - 0x41) = c.toNat + 32 by omega] at hs
              · exact .same this
      · intro h
        cases h with
        | same h =>
          have hc := hn c (by simp)
          rw [if_neg, if_neg, if_neg (by unfold LowerByte at hc; omega), (ih hl' (fun c hc => hn c (by simp [hc]))).mpr h]
          · rintro ⟨rfl, -⟩; exact absurd hc (by decide)
          · rintro ⟨rfl, -⟩; exact absurd hc (by decide)
        | @upper i s n hi h =>
          have e : (UInt8.ofNat (0x41 + i)).toNat = 0x41 + i := by simp; omega
          rw [if_neg, if_neg, if_pos (by omega), e, (ih hl' (fun c hc => hn c (by simp [hc]))).mpr h, show 0x41 + i + 32 = 0x61 + i by omega]
          · rintro ⟨h, -⟩
            have := congrArg UInt8.toNat h
            rw [e] at this
            simp at this
            omega
          · rintro ⟨h, -⟩
            have := congrArg UInt8.toNat h
            rw [e] at this
            simp at this
            omega
        | @longS s n h =>
          rw [if_pos ⟨rfl, rfl⟩]
          exact congrArg _ ((ih (by simp at hl' ⊢; omega) (fun c hc => hn c (by simp [hc]))).mpr h)
        | @kelvin s n h =>
          rw [if_neg (by rintro ⟨h, -⟩; exact absurd h (by decide)), if_pos ⟨rfl, rfl⟩]
          exact congrArg _ ((ih (by simp at hl' ⊢; omega) (fun c hc => hn c (by simp [hc]))).mpr h)

/-- The names that `encoding/json` takes for a field are the spellings of its name. -/
theorem isField_iff {name : String} (hn : ∀ c ∈ str name, LowerByte c) {key : GoStr} : isField name key = true ↔ Spelled key (str name) := by
  unfold isField foldKey
  rw [decide_eq_true_eq]
  exact foldAux_spelled _ (Nat.le_refl _) hn

theorem fold_iff {name : String} (hn : ∀ c ∈ str name, LowerByte c) {key : GoStr} : foldKey key = str name ↔ Spelled key (str name) :=
  foldAux_spelled _ (Nat.le_refl _) hn

/-! ## Numbers and bytes -/

theorem hexValue_nat {ds : Bytes} {n : Nat} (h : HexNat ds n) : hexValue 0 ds = some n := by
  induction h with
  | nil => rfl
  | snoc _ hd ih =>
    rw [hexValue_append, ih]
    simp only [Option.bind_some, hexValue, hexDigit_nibble.mp hd]
    congr 1
    omega

theorem strip_prefix {p : Bytes} (h : Prefix p) (ds : Bytes) : p ++ ds ≠ [] ∧ strip0x (p ++ ds) = some ds := by
  have e1 : str "0x" = [0x30, 0x78] := by decide +kernel
  have e2 : str "0X" = [0x30, 0x58] := by decide +kernel
  rcases h with rfl | rfl
  · rw [e1]; exact ⟨by simp, by simp [strip0x]⟩
  · rw [e2]; exact ⟨by simp, by simp [strip0x]⟩

theorem hexNum_of {max : Nat} {raw : Bytes} {n : Nat} (h : NumberOf max raw n) : hexNum max raw = some n := by
  rcases h with ⟨rfl, rfl⟩ | ⟨p, ds, rfl, hp, h1, h2, h3, h4⟩
  · rfl
  · obtain ⟨hne, hs⟩ := strip_prefix hp ds
    unfold hexNum
    rw [if_neg hne, hs]
    simp only []
    rw [if_neg h1, if_neg (fun h => by have := h3 h.2; omega), if_neg (by omega), hexValue_nat h4]

theorem hexPairs_of {ds b : Bytes} (h : HexBytes ds b) : hexPairs ds = some b := by
  induction h with
  | nil => rfl
  | @cons a b x y ds bs ha hb _ ih =>
    rw [hexPairs, hexDigit_nibble.mp ha, hexDigit_nibble.mp hb, ih]
    simp only []
    rw [Nat.mul_comm]

theorem hexData_of {raw b : Bytes} (h : DataOf raw b) : hexData raw = some b := by
  rcases h with ⟨rfl, rfl⟩ | ⟨p, ds, rfl, hp, h⟩
  · rfl
  · obtain ⟨hne, hs⟩ := strip_prefix hp ds
    unfold hexData
    rw [if_neg hne, hs]
    exact hexPairs_of h

theorem decHash_of {raw : Bytes} {h : Hash} (hh : HashOf raw h) : decHash (.str raw) = some h := by
  simp only [decHash, hexData_of hh]
  rw [dif_pos h.len]

theorem nat_hexValue {pre ds : Bytes} {acc n : Nat} (hp : HexNat pre acc) (h : hexValue acc ds = some n) : HexNat (pre ++ ds) n := by
  induction ds generalizing pre acc with
  | nil => cases h; rwa [List.append_nil]
  | cons c ds ih =>
    rw [hexValue] at h
    cases hn : nibble c with
    | none => rw [hn] at h; cases h
    | some d =>
      rw [hn] at h
      have := ih (.snoc hp (hexDigit_nibble.mpr hn)) (by rw [Nat.mul_comm]; exact h)
      rwa [List.append_assoc] at this

theorem prefix_strip {raw ds : Bytes} (h : strip0x raw = some ds) : ∃ p, Prefix p ∧ raw = p ++ ds := by
  have e1 : str "0x" = [0x30, 0x78] := by decide +kernel
  have e2 : str "0X" = [0x30, 0x58] := by decide +kernel
  unfold strip0x at h
  split at h
  · rename_i a b r
    split at h
    · rename_i hc
      cases h
      obtain ⟨rfl, rfl | rfl⟩ := hc
      · exact ⟨_, .inl e1.symm, rfl⟩
      · exact ⟨_, .inr e2.symm, rfl⟩
    · cases h
  · cases h

/-- What `hexutil` takes for a number. -/
theorem hexNum_iff {max : Nat} {raw : Bytes} {n : Nat} : hexNum max raw = some n ↔ NumberOf max raw n := by
  refine ⟨fun h => ?_, hexNum_of⟩
  unfold hexNum at h
  split at h
  · rename_i e
    cases h
    exact .inl ⟨e, rfl⟩
  · split at h
    · cases h
    · rename_i ds hs
      split at h
      · cases h
      · rename_i h1
        split at h
        · cases h
        · rename_i h2
          split at h
          · cases h
          · rename_i h3
            obtain ⟨p, hp, e⟩ := prefix_strip hs
            refine .inr ⟨p, ds, e, hp, h1, by omega, fun h0 => ?_, nat_hexValue .nil h⟩
            have : 0 < ds.length := List.length_pos_iff.mpr h1
            by_cases hl : 1 < ds.length
            · exact absurd ⟨hl, h0⟩ h2
            · omega

theorem bytes_hexPairs (n : Nat) : ∀ {ds b : Bytes}, ds.length ≤ n → hexPairs ds = some b → HexBytes ds b := by
  induction n with
  | zero =>
    intro ds b hl h
    cases ds with
    | nil => cases h; exact .nil
    | cons c r => simp at hl
  | succ n ih =>
    intro ds b hl h
    cases ds with
    | nil => cases h; exact .nil
    | cons c r =>
      cases r with
      | nil => cases h
      | cons d r =>
        rw [hexPairs] at h
        split at h
        · rename_i x y l hx hy hr
          cases h
          have := HexBytes.cons (hexDigit_nibble.mpr hx) (hexDigit_nibble.mpr hy) (ih (by simp at hl; omega) hr)
          rwa [Nat.mul_comm] at this
        · cases h

/-- What `hexutil` takes for bytes. -/
theorem hexData_iff {raw b : Bytes} : hexData raw = some b ↔ DataOf raw b := by
  refine ⟨fun h => ?_, hexData_of⟩
  unfold hexData at h
  split at h
  · rename_i e
    cases h
    exact .inl ⟨e, rfl⟩
  · split at h
    · cases h
    · rename_i ds hs
      obtain ⟨p, hp, e⟩ := prefix_strip hs
      exact .inr ⟨p, ds, e, hp, bytes_hexPairs _ (Nat.le_refl _) h⟩

theorem decHash_iff {raw : Bytes} {h : Hash} : decHash (.str raw) = some h ↔ HashOf raw h := by
  refine ⟨fun hd => ?_, decHash_of⟩
  simp only [decHash] at hd
  split at hd
  · cases hd
  · rename_i b hb
    split at hd
    · cases hd
      exact hexData_iff.mp hb
    · cases hd

/-! ## Members -/

theorem has_mem {l : List (GoStr × Json)} {name : String} {j : Json} (h : Has l name j) {e : GoStr × Json} (he : e ∈ l) (hs : Spelled e.1 (str name)) : e.2 = j := by
  obtain ⟨a, key, b, rfl, -, hn⟩ := h
  rcases List.mem_append.mp he with he | he
  · exact absurd hs (hn e (List.mem_append_left _ he))
  · rcases List.mem_cons.mp he with rfl | he
    · rfl
    · exact absurd hs (hn e (List.mem_append_right _ he))

/-- Reading goes on to the end. -/
theorem putMembers_all {α : Type} {f : α → GoStr → Json → Put α} {l : List (GoStr × Json)} (h : ∀ e ∈ l, ∀ x, (f x e.1 e.2).2 = true) (x : α) :
    putMembers f x l = (l.foldl (fun x e => (f x e.1 e.2).1) x, true) := by
  induction l generalizing x with
  | nil => rfl
  | cons e l ih =>
    have he := h e (by simp) x
    obtain ⟨k, j⟩ := e
    simp only [putMembers, List.foldl_cons]
    generalize hf : f x k j = p at *
    obtain ⟨y, go⟩ := p
    simp only [] at he
    subst he
    simp only []
    exact ih (fun e he => h e (by simp [he])) y

/-- What a member that is not there leaves alone. -/
theorem fold_lacks {α β : Type} {f : α → GoStr → Json → Put α} {π : α → β} {name : String}
    (hf : ∀ x k j, ¬ Spelled k (str name) → π (f x k j).1 = π x) {l : List (GoStr × Json)} (h : Lacks l name) (x : α) :
    π (l.foldl (fun x e => (f x e.1 e.2).1) x) = π x := by
  induction l generalizing x with
  | nil => rfl
  | cons e l ih =>
    rw [List.foldl_cons, ih (fun e he => h e (by simp [he])), hf _ _ _ (h e (by simp))]

/-- What the only member of a name does. -/
theorem fold_has {α β : Type} {f : α → GoStr → Json → Put α} {π : α → β} {name : String} {g : β → β} {j : Json}
    (hf : ∀ x k j, ¬ Spelled k (str name) → π (f x k j).1 = π x) (hg : ∀ x k, Spelled k (str name) → π (f x k j).1 = g (π x))
    {l : List (GoStr × Json)} (h : Has l name j) (x : α) : π (l.foldl (fun x e => (f x e.1 e.2).1) x) = g (π x) := by
  obtain ⟨a, key, b, rfl, hs, hn⟩ := h
  rw [List.foldl_append, List.foldl_cons, fold_lacks hf (fun e he => hn e (List.mem_append_right _ he)), hg _ _ hs,
    fold_lacks hf (fun e he => hn e (List.mem_append_left _ he))]

/-- The entries of a map. -/
theorem putEntries_of {V : Type} {D : Bytes → V → Prop} {d : Json → Option V} (hd : ∀ raw v, D raw v → d (.str raw) = some v) (ps : List (GoStr × Bytes × V))
    (h : ∀ p ∈ ps, D p.2.1 p.2.2) (m : GMap GoStr V) :
    ∃ m', putEntries d m (ps.map (fun p => (p.1, .str p.2.1))) = (m', true) ∧
      ∀ k v, m'.get? k = some v ↔ (∃ a raw b, ps = a ++ (k, raw, v) :: b ∧ ∀ p ∈ b, p.1 ≠ k) ∨ m.get? k = some v ∧ ∀ p ∈ ps, p.1 ≠ k := by
  induction ps generalizing m with
  | nil => exact ⟨m, rfl, fun k v => by simp⟩
  | cons p ps ih =>
    obtain ⟨key, raw, v⟩ := p
    obtain ⟨m', h1, h2⟩ := ih (fun p hp => h p (by simp [hp])) (m.insert key v)
    refine ⟨m', ?_, ?_⟩
    · simp only [List.map_cons, putEntries, hd _ _ (h (key, raw, v) (by simp))]
      exact h1
    · intro k w
      rw [h2, GMap.get?_insert]
      constructor
      · rintro (⟨a, r, b, rfl, hb⟩ | ⟨hg, hp⟩)
        · exact .inl ⟨(key, raw, v) :: a, r, b, rfl, hb⟩
        · split at hg
          · rename_i e
            subst e
            cases hg
            exact .inl ⟨[], raw, ps, rfl, hp⟩
          · rename_i hne
            refine .inr ⟨hg, fun p hm => ?_⟩
            rcases List.mem_cons.mp hm with rfl | hm
            · exact hne
            · exact hp p hm
      · rintro (⟨a, r, b, e, hb⟩ | ⟨hg, hp⟩)
        · cases a with
          | nil =>
            injection e with e1 e2
            cases e1
            subst e2
            exact .inr ⟨by rw [if_pos rfl], hb⟩
          | cons x a =>
            injection e with e1 e2
            exact .inl ⟨a, r, b, e2, hb⟩
        · refine .inr ⟨?_, fun p hm => hp p (by simp [hm])⟩
          rw [if_neg (hp (key, raw, v) (by simp))]
          exact hg

/-- A map that is read agrees with the specification. -/
theorem putMap_of {V : Type} {D : Bytes → V → Prop} {d : Json → Option V} (hd : ∀ raw v, D raw v → d (.str raw) = some v) {ps : List (GoStr × Bytes × V)}
    (h : ∀ p ∈ ps, D p.2.1 p.2.2) {look : GoStr → Option V} (hl : ∀ k v, look k = some v ↔ ∃ a raw b, ps = a ++ (k, raw, v) :: b ∧ ∀ p ∈ b, p.1 ≠ k)
    (k : GoStr) : (putMap d GMap.empty (.obj (ps.map (fun p => (p.1, .str p.2.1))))).1.get? k = look k := by
  obtain ⟨m', h1, h2⟩ := putEntries_of hd ps h GMap.empty
  refine Option.ext (fun v => ?_)
  simp only [putMap, h1]
  rw [h2, hl]
  constructor
  · rintro (h | ⟨h, -⟩)
    · exact h
    · rw [GMap.get?_empty] at h; cases h
  · exact .inl

theorem putMap_goes {V : Type} {D : Bytes → V → Prop} {d : Json → Option V} (hd : ∀ raw v, D raw v → d (.str raw) = some v) {ps : List (GoStr × Bytes × V)}
    (h : ∀ p ∈ ps, D p.2.1 p.2.2) (m : GMap GoStr V) : (putMap d m (.obj (ps.map (fun p => (p.1, .str p.2.1))))).2 = true := by
  obtain ⟨m', h1, h2⟩ := putEntries_of hd ps h m
  simp only [putMap, h1]

theorem putStrings_of {ps : List (Bytes × GoStr)} (h : ∀ p ∈ ps, StringText True p.1 p.2) (old : List GoStr) :
    putStrings old (.arr (ps.map (fun p => .str p.1))) = ps.map Prod.snd := by
  simp only [putStrings, List.map_map]
  refine List.map_congr_left (fun p hp => ?_)
  simp only [Function.comp, putString, unquote_text (h p hp), Option.getD_some]

/-! ## A block -/

/-- The names of the members are lower-case letters, and different. -/
theorem names_lower : ∀ n ∈ ["number", "weight", "hash", "parent", "values", "deletes", "batches", "batchid", "type", "batch", "subbatch", "jsonrpc", "method",
    "params", "subscription", "result"], ∀ c ∈ str n, LowerByte c := by decide +kernel

theorem spelled_fold {name : String} {k : GoStr} (hn : name ∈ ["number", "weight", "hash", "parent", "values", "deletes", "batches", "batchid", "type", "batch", "subbatch",
    "jsonrpc", "method", "params", "subscription", "result"]) : Spelled k (str name) ↔ isField name k = true := (isField_iff (names_lower name hn)).symm

/-- A key that names one field names no other. -/
theorem field_unique {a b : String} {k : GoStr} (h : isField a k = true) (hne : str a ≠ str b) : isField b k = false := by
  unfold isField at h ⊢
  rw [decide_eq_true_eq] at h
  rw [decide_eq_false_iff_not, h]
  exact hne

theorem block_number (x : JBatch) (k : GoStr) (j : Json) :
    (x.member k j).1.number = if isField "number" k then (putWith (decUint64 j) x.number).1 else x.number := by
  unfold JBatch.member
  by_cases h : isField "number" k = true
  · rw [if_pos h, if_pos h]
  · rw [if_neg h, if_neg h]
    split
    · rfl
    · split
      · rfl
      · split
        · rfl
        · split
          · rfl
          · split
            · rfl
            · split <;> rfl

theorem block_weight (x : JBatch) (k : GoStr) (j : Json) :
    (x.member k j).1.weight = if isField "weight" k then (putBig x.weight j).1 else x.weight := by
  unfold JBatch.member
  by_cases h : isField "weight" k = true
  · rw [field_unique h (b := "number") (by decide +kernel), if_neg (by decide), if_pos h, if_pos h]
  · rw [if_neg h, if_neg h]
    split
    · rfl
    · split
      · rfl
      · split
        · rfl
        · split
          · rfl
          · split
            · rfl
            · split <;> rfl

theorem block_hash (x : JBatch) (k : GoStr) (j : Json) :
    (x.member k j).1.hash = if isField "hash" k then (putWith (decHash j) x.hash).1 else x.hash := by
  unfold JBatch.member
  by_cases h : isField "hash" k = true
  · rw [field_unique h (b := "number") (by decide +kernel), field_unique h (b := "weight") (by decide +kernel), if_neg (by decide), if_neg (by decide), if_pos h, if_pos h]
  · rw [if_neg h, if_neg h]
    split
    · rfl
    · split
      · rfl
      · split
        · rfl
        · split
          · rfl
          · split
            · rfl
            · split <;> rfl

theorem block_parent (x : JBatch) (k : GoStr) (j : Json) :
    (x.member k j).1.parentHash = if isField "parent" k then (putWith (decHash j) x.parentHash).1 else x.parentHash := by
  unfold JBatch.member
  by_cases h : isField "parent" k = true
  · rw [field_unique h (b := "number") (by decide +kernel), field_unique h (b := "weight") (by decide +kernel), field_unique h (b := "hash") (by decide +kernel),
      if_neg (by decide), if_neg (by decide), if_neg (by decide), if_pos h, if_pos h]
  · rw [if_neg h, if_neg h]
    split
    · rfl
    · split
      · rfl
      · split
        · rfl
        · split
          · rfl
          · split
            · rfl
            · split <;> rfl

theorem block_values (x : JBatch) (k : GoStr) (j : Json) :
    (x.member k j).1.values = if isField "values" k then (putMap decBytes x.values j).1 else x.values := by
  unfold JBatch.member
  by_cases h : isField "values" k = true
  · rw [field_unique h (b := "number") (by decide +kernel), field_unique h (b := "weight") (by decide +kernel), field_unique h (b := "hash") (by decide +kernel),
      field_unique h (b := "parent") (by decide +kernel),
      if_neg (by decide), if_neg (by decide), if_neg (by decide), if_neg (by decide), if_pos h, if_pos h]
  · rw [if_neg h, if_neg h]
    split
    · rfl
    · split
      · rfl
      · split
        · rfl
        · split
          · rfl
          · split
            · rfl
            · split <;> rfl

theorem block_deletes (x : JBatch) (k : GoStr) (j : Json) :
    (x.member k j).1.deletes = if isField "deletes" k then putStrings x.deletes j else x.deletes := by
  unfold JBatch.member
  by_cases h : isField "deletes" k = true
  · rw [field_unique h (b := "number") (by decide +kernel), field_unique h (b := "weight") (by decide +kernel), field_unique h (b := "hash") (by decide +kernel),
      field_unique h (b := "parent") (by decide +kernel), field_unique h (b := "values") (by decide +kernel),
      if_neg (by decide), if_neg (by decide), if_neg (by decide), if_neg (by decide), if_neg (by decide), if_pos h, if_pos h]
  · rw [if_neg h, if_neg h]
    split
    · rfl
    · split
      · rfl
      · split
        · rfl
        · split
          · rfl
          · split
            · rfl
            · split <;> rfl

theorem block_batches (x : JBatch) (k : GoStr) (j : Json) :
    (x.member k j).1.batches = if isField "batches" k then (putMap decHash x.batches j).1 else x.batches := by
  unfold JBatch.member
  by_cases h : isField "batches" k = true
  · rw [field_unique h (b := "number") (by decide +kernel), field_unique h (b := "weight") (by decide +kernel), field_unique h (b := "hash") (by decide +kernel),
      field_unique h (b := "parent") (by decide +kernel), field_unique h (b := "values") (by decide +kernel), field_unique h (b := "deletes") (by decide +kernel),
      if_neg (by decide), if_neg (by decide), if_neg (by decide), if_neg (by decide), if_neg (by decide), if_neg (by decide), if_pos h, if_pos h]
  · rw [if_neg h, if_neg h]
    split
    · rfl
    · split
      · rfl
      · split
        · rfl
        · split
          · rfl
          · split
            · rfl
            · split <;> rfl

theorem block_goes (x : JBatch) (k : GoStr) (j : Json) (h1 : isField "number" k = true → (decUint64 j).isSome) (h2 : isField "weight" k = true → (putBig x.weight j).2 = true)
    (h3 : isField "hash" k = true → (decHash j).isSome) (h4 : isField "parent" k = true → (decHash j).isSome)
    (h5 : isField "values" k = true → (putMap decBytes x.values j).2 = true) (h6 : isField "batches" k = true → (putMap decHash x.batches j).2 = true) :
    (x.member k j).2 = true := by
  have hw : ∀ {α : Type} {d : Option α} {old : α}, d.isSome → (putWith d old).2 = true := by
    intro α d old h
    cases d with
    | none => cases h
    | some v => rfl
  unfold JBatch.member
  split
  · rename_i h; exact hw (h1 h)
  · split
    · rename_i h; exact h2 h
    · split
      · rename_i h; exact hw (h3 h)
      · split
        · rename_i h; exact hw (h4 h)
        · split
          · rename_i h; exact h5 h
          · split
            · rfl
            · split
              · rename_i h; exact h6 h
              · rfl

/-- What a value read by `D` does to the variable. -/
theorem field_value {α σ : Type} {f : σ → GoStr → Json → Put σ} {π : σ → α} {name : String} {D : Bytes → α → Prop} {d : Json → Option α} {zero : α}
    (hn : ∀ c ∈ str name, LowerByte c) (hd : ∀ raw v, D raw v → d (.str raw) = some v)
    (hf : ∀ x k j, π (f x k j).1 = if isField name k then (putWith (d j) (π x)).1 else π x)
    {l : List (GoStr × Json)} {v : α} (h : Field D zero l name v) {x : σ} (hx : π x = zero) :
    π (l.foldl (fun x e => (f x e.1 e.2).1) x) = v := by
  have hnot : ∀ x k j, ¬ Spelled k (str name) → π (f x k j).1 = π x := fun x k j hs => by
    rw [hf, if_neg (fun e => hs ((isField_iff hn).mp e))]
  rcases h with ⟨h, rfl⟩ | ⟨raw, h, hD⟩
  · rw [fold_lacks hnot h, hx]
  · rw [fold_has (g := fun _ => v) hnot (fun x k hs => ?_) h]
    rw [hf, if_pos ((isField_iff hn).mpr hs), hd _ _ hD]
    rfl

theorem mapField_value {V σ : Type} {f : σ → GoStr → Json → Put σ} {π : σ → GMap GoStr V} {name : String} {D : Bytes → V → Prop} {d : Json → Option V}
    (hn : ∀ c ∈ str name, LowerByte c) (hd : ∀ raw v, D raw v → d (.str raw) = some v)
    (hf : ∀ x k j, π (f x k j).1 = if isField name k then (putMap d (π x) j).1 else π x)
    {l : List (GoStr × Json)} {look : GoStr → Option V} (h : MapField D l name look) {x : σ} (hx : π x = GMap.empty) (k : GoStr) :
    (π (l.foldl (fun x e => (f x e.1 e.2).1) x)).get? k = look k := by
  have hnot : ∀ x k j, ¬ Spelled k (str name) → π (f x k j).1 = π x := fun x k j hs => by
    rw [hf, if_neg (fun e => hs ((isField_iff hn).mp e))]
  have hyes : ∀ j x k, Spelled k (str name) → π (f x k j).1 = (putMap d (π x) j).1 := fun j x k hs => by
    rw [hf, if_pos ((isField_iff hn).mpr hs)]
  rcases h with ⟨h | h, hl⟩ | ⟨ps, h, hD, hl⟩
  · rw [fold_lacks hnot h, hx, hl, GMap.get?_empty]
  · rw [fold_has (g := fun m => (putMap d m .null).1) hnot (hyes _) h, hl]
    exact GMap.get?_empty _
  · rw [fold_has (g := fun m => (putMap d m _).1) hnot (hyes _) h, hx]
    exact putMap_of hd hD hl k

theorem listField_value {σ : Type} {f : σ → GoStr → Json → Put σ} {π : σ → List GoStr} {name : String}
    (hn : ∀ c ∈ str name, LowerByte c)
    (hf : ∀ x k j, π (f x k j).1 = if isField name k then putStrings (π x) j else π x)
    {l : List (GoStr × Json)} {ks : List GoStr} (h : ListField l name ks) {x : σ} (hx : π x = []) :
    π (l.foldl (fun x e => (f x e.1 e.2).1) x) = ks := by
  have hnot : ∀ x k j, ¬ Spelled k (str name) → π (f x k j).1 = π x := fun x k j hs => by
    rw [hf, if_neg (fun e => hs ((isField_iff hn).mp e))]
  have hyes : ∀ j x k, Spelled k (str name) → π (f x k j).1 = putStrings (π x) j := fun j x k hs => by
    rw [hf, if_pos ((isField_iff hn).mpr hs)]
  rcases h with ⟨h | h, rfl⟩ | ⟨ps, h, hp, rfl⟩
  · rw [fold_lacks hnot h, hx]
  · rw [fold_has (g := fun m => putStrings m .null) hnot (hyes _) h]
    rfl
  · rw [fold_has (g := fun m => putStrings m _) hnot (hyes _) h]
    exact putStrings_of hp _

theorem field_some {α : Type} {name : String} {D : Bytes → α → Prop} {d : Json → Option α} {zero : α}
    (hn : ∀ c ∈ str name, LowerByte c) (hd : ∀ raw v, D raw v → d (.str raw) = some v)
    {l : List (GoStr × Json)} {v : α} (h : Field D zero l name v) {e : GoStr × Json} (he : e ∈ l) (hs : isField name e.1 = true) : (d e.2).isSome := by
  have hs := (isField_iff hn).mp hs
  rcases h with ⟨h, rfl⟩ | ⟨raw, h, hD⟩
  · exact absurd hs (h e he)
  · rw [has_mem h he hs, hd _ _ hD]
    rfl

theorem mapField_goes {V : Type} {name : String} {D : Bytes → V → Prop} {d : Json → Option V}
    (hn : ∀ c ∈ str name, LowerByte c) (hd : ∀ raw v, D raw v → d (.str raw) = some v)
    {l : List (GoStr × Json)} {look : GoStr → Option V} (h : MapField D l name look) {e : GoStr × Json} (he : e ∈ l) (hs : isField name e.1 = true) (m : GMap GoStr V) :
    (putMap d m e.2).2 = true := by
  have hs := (isField_iff hn).mp hs
  rcases h with ⟨h | h, hl⟩ | ⟨ps, h, hD, hl⟩
  · exact absurd hs (h e he)
  · rw [has_mem h he hs]
    rfl
  · rw [has_mem h he hs]
    exact putMap_goes hd hD m

theorem uint64_of (raw : Bytes) (v : Nat) (h : NumberOf 16 raw v) : decUint64 (.str raw) = some v := hexNum_of h

/-- A block that is read. -/
theorem read_block {l : List (GoStr × Json)} {b : Block} (h : BlockSays l b) :
    ∃ r : JBatch, putMembers JBatch.member JBatch.zero l = (r, true) ∧ r.number = b.number ∧ r.weight = b.weight ∧ r.hash = b.hash ∧ r.parentHash = b.parent ∧
      (∀ k, r.values.get? k = b.values k) ∧ r.deletes = b.deletes ∧ (∀ k, r.batches.get? k = b.batches k) ∧
      ∀ x, (putMembers JBatch.member x l).2 = true := by
  obtain ⟨h1, h2, h3, h4, h5, h6, h7⟩ := h
  have hw : ∀ e ∈ l, isField "weight" e.1 = true → ∀ x, (putBig x e.2).2 = true := by
    intro e he hs x
    have hs := (isField_iff (names_lower "weight" (by decide))).mp hs
    rcases h2 with ⟨h | h, -⟩ | ⟨raw, w, h, hD, -⟩
    · exact absurd hs (h e he)
    · rw [has_mem h he hs]; rfl
    · rw [has_mem h he hs]
      simp only [putBig, hexNum_of hD]
  have hall := putMembers_all (f := JBatch.member) (l := l) (fun e he x => block_goes x e.1 e.2 (field_some (names_lower "number" (by decide)) uint64_of h1 he) (fun hs => hw e he hs _)
    (field_some (names_lower "hash" (by decide)) (fun _ _ => decHash_of) h3 he) (field_some (names_lower "parent" (by decide)) (fun _ _ => decHash_of) h4 he)
    (fun hs => mapField_goes (names_lower "values" (by decide)) (fun _ _ h => hexData_of h) h5 he hs _)
    (fun hs => mapField_goes (names_lower "batches" (by decide)) (fun _ _ => decHash_of) h7 he hs _))
  refine ⟨_, hall _, ?_, ?_, ?_, ?_, ?_, ?_, ?_, fun x => by rw [hall]⟩
  · exact field_value (π := JBatch.number) (names_lower "number" (by decide)) uint64_of block_number h1 rfl
  · have hnot : ∀ (x : JBatch) k j, ¬ Spelled k (str "weight") → (x.member k j).1.weight = x.weight := fun x k j hs => by
      rw [block_weight, if_neg (fun e => hs ((isField_iff (names_lower "weight" (by decide))).mp e))]
    have hyes : ∀ j (x : JBatch) k, Spelled k (str "weight") → (x.member k j).1.weight = (putBig x.weight j).1 := fun j x k hs => by
      rw [block_weight, if_pos ((isField_iff (names_lower "weight" (by decide))).mpr hs)]
    rcases h2 with ⟨h | h, e⟩ | ⟨raw, w, h, hD, e⟩
    · rw [fold_lacks (π := JBatch.weight) hnot h, e]
      rfl
    · rw [fold_has (π := JBatch.weight) (g := fun m => (putBig m .null).1) hnot (hyes _) h, e]
      rfl
    · rw [fold_has (π := JBatch.weight) (g := fun m => (putBig m _).1) hnot (hyes _) h, e]
      simp only [putBig, hexNum_of hD]
  · exact field_value (π := JBatch.hash) (names_lower "hash" (by decide)) (fun _ _ => decHash_of) block_hash h3 rfl
  · exact field_value (π := JBatch.parentHash) (names_lower "parent" (by decide)) (fun _ _ => decHash_of) block_parent h4 rfl
  · exact mapField_value (π := JBatch.values) (names_lower "values" (by decide)) (fun _ _ h => hexData_of h) block_values h5 rfl
  · exact listField_value (π := JBatch.deletes) (names_lower "deletes" (by decide)) block_deletes h6 rfl
  · exact mapField_value (π := JBatch.batches) (names_lower "batches" (by decide)) (fun _ _ => decHash_of) block_batches h7 rfl

/-! ## A part of a block -/

theorem part_hash (x : TSub) (k : GoStr) (j : Json) :
    (x.member k j).1.hash = if isField "hash" k then (putWith (decHash j) x.hash).1 else x.hash := by
  unfold TSub.member
  by_cases h : isField "hash" k = true
  · rw [if_pos h, if_pos h]
  · rw [if_neg h, if_neg h]
    split
    · rfl
    · split
      · rfl
      · split <;> rfl

theorem part_batchid (x : TSub) (k : GoStr) (j : Json) :
    (x.member k j).1.batchId = if isField "batchid" k then (putWith (decHash j) x.batchId).1 else x.batchId := by
  unfold TSub.member
  by_cases h : isField "batchid" k = true
  · rw [field_unique h (b := "hash") (by decide +kernel), if_neg (by decide), if_pos h, if_pos h]
  · rw [if_neg h, if_neg h]
    split
    · rfl
    · split
      · rfl
      · split <;> rfl

theorem part_values (x : TSub) (k : GoStr) (j : Json) :
    (x.member k j).1.values = if isField "values" k then (putMap decBytes x.values j).1 else x.values := by
  unfold TSub.member
  by_cases h : isField "values" k = true
  · rw [field_unique h (b := "hash") (by decide +kernel), field_unique h (b := "batchid") (by decide +kernel), if_neg (by decide), if_neg (by decide), if_pos h, if_pos h]
  · rw [if_neg h, if_neg h]
    split
    · rfl
    · split
      · rfl
      · split <;> rfl

theorem part_deletes (x : TSub) (k : GoStr) (j : Json) :
    (x.member k j).1.deletes = if isField "deletes" k then putStrings x.deletes j else x.deletes := by
  unfold TSub.member
  by_cases h : isField "deletes" k = true
  · rw [field_unique h (b := "hash") (by decide +kernel), field_unique h (b := "batchid") (by decide +kernel), field_unique h (b := "values") (by decide +kernel),
      if_neg (by decide), if_neg (by decide), if_neg (by decide), if_pos h, if_pos h]
  · rw [if_neg h, if_neg h]
    split
    · rfl
    · split
      · rfl
      · split <;> rfl

theorem part_goes (x : TSub) (k : GoStr) (j : Json) (h1 : isField "hash" k = true → (decHash j).isSome) (h2 : isField "batchid" k = true → (decHash j).isSome)
    (h3 : isField "values" k = true → (putMap decBytes x.values j).2 = true) : (x.member k j).2 = true := by
  have hw : ∀ {α : Type} {d : Option α} {old : α}, d.isSome → (putWith d old).2 = true := by
    intro α d old h
    cases d with
    | none => cases h
    | some v => rfl
  unfold TSub.member
  split
  · rename_i h; exact hw (h1 h)
  · split
    · rename_i h; exact hw (h2 h)
    · split
      · rename_i h; exact h3 h
      · split <;> rfl

/-- A part that is read. -/
theorem read_part {l : List (GoStr × Json)} {s : Part} (h : PartSays l s) :
    ∃ r : TSub, putMembers TSub.member TSub.zero l = (r, true) ∧ r.hash = s.hash ∧ r.batchId = s.batchid ∧ (∀ k, r.values.get? k = s.values k) ∧ r.deletes = s.deletes ∧
      ∀ x, (putMembers TSub.member x l).2 = true := by
  obtain ⟨h1, h2, h3, h4⟩ := h
  have hall := putMembers_all (f := TSub.member) (l := l) (fun e he x => part_goes x e.1 e.2 (field_some (names_lower "hash" (by decide)) (fun _ _ => decHash_of) h1 he)
    (field_some (names_lower "batchid" (by decide)) (fun _ _ => decHash_of) h2 he)
    (fun hs => mapField_goes (names_lower "values" (by decide)) (fun _ _ h => hexData_of h) h3 he hs _))
  refine ⟨_, hall _, ?_, ?_, ?_, ?_, fun x => by rw [hall]⟩
  · exact field_value (π := TSub.hash) (names_lower "hash" (by decide)) (fun _ _ => decHash_of) part_hash h1 rfl
  · exact field_value (π := TSub.batchId) (names_lower "batchid" (by decide)) (fun _ _ => decHash_of) part_batchid h2 rfl
  · exact mapField_value (π := TSub.values) (names_lower "values" (by decide)) (fun _ _ h => hexData_of h) part_values h3 rfl
  · exact listField_value (π := TSub.deletes) (names_lower "deletes" (by decide)) part_deletes h4 rfl

/-! ## An item and its notification -/

/-- A string, as a decoder. -/
def decString : Json → Option GoStr
  | .str raw => unquote raw
  | _ => none

theorem putString_with (old : GoStr) (j : Json) : putString old j = (putWith (decString j) old).1 := by
  cases j with
  | str raw =>
    simp only [putString, decString]
    cases unquote raw <;> rfl
  | _ => rfl

theorem item_type_eq (x : JItem) (k : GoStr) (j : Json) :
    (x.member k j).1.type = if isField "type" k then (putWith (decString j) x.type).1 else x.type := by
  unfold JItem.member
  by_cases h : isField "type" k = true
  · rw [if_pos h, if_pos h, ← putString_with]
  · rw [if_neg h, if_neg h]
    split
    · rfl
    · split <;> rfl

theorem item_batch_eq (x : JItem) (k : GoStr) (j : Json) :
    (x.member k j).1.batch = if isField "batch" k then (putPtr JBatch.zero JBatch.member x.batch j).1 else x.batch := by
  unfold JItem.member
  by_cases h : isField "batch" k = true
  · rw [field_unique h (b := "type") (by decide +kernel), if_neg (by decide), if_pos h, if_pos h]
  · rw [if_neg h, if_neg h]
    split
    · rfl
    · split <;> rfl

theorem item_sub_eq (x : JItem) (k : GoStr) (j : Json) :
    (x.member k j).1.sub = if isField "subbatch" k then (putPtr TSub.zero TSub.member x.sub j).1 else x.sub := by
  unfold JItem.member
  by_cases h : isField "subbatch" k = true
  · rw [field_unique h (b := "type") (by decide +kernel), field_unique h (b := "batch") (by decide +kernel), if_neg (by decide), if_neg (by decide), if_pos h, if_pos h]
  · rw [if_neg h, if_neg h]
    split
    · rfl
    · split <;> rfl

theorem item_goes (x : JItem) (k : GoStr) (j : Json) (h1 : isField "batch" k = true → (putPtr JBatch.zero JBatch.member x.batch j).2 = true)
    (h2 : isField "subbatch" k = true → (putPtr TSub.zero TSub.member x.sub j).2 = true) : (x.member k j).2 = true := by
  unfold JItem.member
  split
  · rfl
  · split
    · rename_i h; exact h1 h
    · split
      · rename_i h; exact h2 h
      · rfl

/-- A pointer to a struct after its member, if it was nil. -/
theorem objField_value {α β σ : Type} {f : σ → GoStr → Json → Put σ} {π : σ → Option β} {name : String} {zero : β} {F : β → GoStr → Json → Put β}
    {S : List (GoStr × Json) → α → Prop} (hn : ∀ c ∈ str name, LowerByte c)
    (hf : ∀ x k j, π (f x k j).1 = if isField name k then (putPtr zero F (π x) j).1 else π x)
    {l : List (GoStr × Json)} {o : Option α} (h : ObjField S l name o) {x : σ} (hx : π x = none) :
    match o with
    | none => π (l.foldl (fun x e => (f x e.1 e.2).1) x) = none
    | some v => ∃ l', S l' v ∧ π (l.foldl (fun x e => (f x e.1 e.2).1) x) = some (putMembers F zero l').1 := by
  have hnot : ∀ x k j, ¬ Spelled k (str name) → π (f x k j).1 = π x := fun x k j hs => by
    rw [hf, if_neg (fun e => hs ((isField_iff hn).mp e))]
  have hyes : ∀ j x k, Spelled k (str name) → π (f x k j).1 = (putPtr zero F (π x) j).1 := fun j x k hs => by
    rw [hf, if_pos ((isField_iff hn).mpr hs)]
  cases o with
  | none =>
    rcases h with h | h
    · show π _ = none
      rw [fold_lacks hnot h, hx]
    · show π _ = none
      rw [fold_has (g := fun m => (putPtr zero F m .null).1) hnot (hyes _) h]
      rfl
  | some v =>
    obtain ⟨l', h, hS⟩ := h
    refine ⟨l', hS, ?_⟩
    rw [fold_has (g := fun m => (putPtr zero F m _).1) hnot (hyes _) h, hx]
    rfl

theorem objField_goes {α β : Type} {name : String} {zero : β} {F : β → GoStr → Json → Put β} {S : List (GoStr × Json) → α → Prop}
    (hn : ∀ c ∈ str name, LowerByte c) (hS : ∀ l' v, S l' v → ∀ x, (putMembers F x l').2 = true) {l : List (GoStr × Json)} {o : Option α} (h : ObjField S l name o)
    {e : GoStr × Json} (he : e ∈ l) (hs : isField name e.1 = true) (m : Option β) : (putPtr zero F m e.2).2 = true := by
  have hs := (isField_iff hn).mp hs
  cases o with
  | none =>
    rcases h with h | h
    · exact absurd hs (h e he)
    · rw [has_mem h he hs]
      rfl
  | some v =>
    obtain ⟨l', h, hv⟩ := h
    rw [has_mem h he hs]
    exact hS l' v hv _

/-- An item that is read. -/
theorem read_item {l : List (GoStr × Json)} {ty : GoStr} {block : Option Block} {part : Option Part} (h : ItemSays l ty block part) :
    (decItem (some (.obj l))).type = ty ∧
    (match block with
      | none => (decItem (some (.obj l))).batch = none
      | some b => ∃ r : JBatch, (decItem (some (.obj l))).batch = some r ∧ r.number = b.number ∧ r.weight = b.weight ∧ r.hash = b.hash ∧ r.parentHash = b.parent ∧
          (∀ k, r.values.get? k = b.values k) ∧ r.deletes = b.deletes ∧ ∀ k, r.batches.get? k = b.batches k) ∧
    (match part with
      | none => (decItem (some (.obj l))).sub = none
      | some s => ∃ r : TSub, (decItem (some (.obj l))).sub = some r ∧ r.hash = s.hash ∧ r.batchId = s.batchid ∧ (∀ k, r.values.get? k = s.values k) ∧
          r.deletes = s.deletes) := by
  obtain ⟨h1, h2, h3⟩ := h
  have hall := putMembers_all (f := JItem.member) (l := l) (fun e he x => item_goes x e.1 e.2
    (fun hs => objField_goes (names_lower "batch" (by decide)) (fun l' v hv x => by obtain ⟨r, -, -, -, -, -, -, -, -, h⟩ := read_block hv; exact h x) h2 he hs _)
    (fun hs => objField_goes (names_lower "subbatch" (by decide)) (fun l' v hv x => by obtain ⟨r, -, -, -, -, -, h⟩ := read_part hv; exact h x) h3 he hs _)) JItem.zero
  simp only [decItem, hall]
  refine ⟨?_, ?_, ?_⟩
  · exact field_value (π := JItem.type) (names_lower "type" (by decide)) (D := StringText True) (d := decString) (fun _ _ h => unquote_text h) item_type_eq h1 rfl
  · have hv := objField_value (π := JItem.batch) (names_lower "batch" (by decide)) item_batch_eq h2 (x := JItem.zero) rfl
    cases block with
    | none => exact hv
    | some b =>
      obtain ⟨l', hS, e⟩ := hv
      obtain ⟨r, hr, e1, e2, e3, e4, e5, e6, e7, -⟩ := read_block hS
      rw [hr] at e
      exact ⟨r, e, e1, e2, e3, e4, e5, e6, e7⟩
  · have hv := objField_value (π := JItem.sub) (names_lower "subbatch" (by decide)) item_sub_eq h3 (x := JItem.zero) rfl
    cases part with
    | none => exact hv
    | some b =>
      obtain ⟨l', hS, e⟩ := hv
      obtain ⟨r, hr, e1, e2, e3, e4, -⟩ := read_part hS
      rw [hr] at e
      exact ⟨r, e, e1, e2, e3, e4⟩

theorem note_method_eq (x : JNote) (k : GoStr) (j : Json) :
    (x.member k j).1.method = if isField "method" k then putString x.method j else x.method := by
  have hp : ∀ (l : List (GoStr × Json)) (x : JNote), (putMembers JNote.param x l).1.method = x.method := by
    intro l
    induction l with
    | nil => intro x; rfl
    | cons e l ih =>
      intro x
      have h1 : (JNote.param x e.1 e.2).1.method = x.method := by
        unfold JNote.param
        split
        · rfl
        · split <;> rfl
      rw [putMembers]
      generalize hq : JNote.param x e.1 e.2 = q at h1
      obtain ⟨y, go⟩ := q
      cases go with
      | true => simp only []; rw [ih, h1]
      | false => exact h1
  unfold JNote.member
  by_cases h : isField "method" k = true
  · rw [field_unique h (b := "jsonrpc") (by decide +kernel), if_neg (by decide), if_pos h, if_pos h]
  · rw [if_neg h, if_neg h]
    split
    · rfl
    · split
      · split
        · exact hp _ _
        · rfl
      · rfl

/-- The two members of the params. -/
theorem read_params {params : List (GoStr × Json)} {sub : Bytes} {subid : Nat} {result : Json} (h1 : Has params "subscription" (.str sub)) (h2 : NumberOf 16 sub subid)
    (h3 : Has params "result" result) (x : JNote) :
    (putMembers JNote.param x params).2 = true ∧ (putMembers JNote.param x params).1.id = subid ∧ (putMembers JNote.param x params).1.result = some result := by
  have hid : ∀ (x : JNote) k j, (x.param k j).1.id = if isField "subscription" k then (putWith (decUint64 j) x.id).1 else x.id := by
    intro x k j
    unfold JNote.param
    by_cases h : isField "subscription" k = true
    · rw [if_pos h, if_pos h]
    · rw [if_neg h, if_neg h]
      split <;> rfl
  have hre : ∀ (x : JNote) k j, (x.param k j).1.result = if isField "result" k then some j else x.result := by
    intro x k j
    unfold JNote.param
    by_cases h : isField "result" k = true
    · rw [field_unique h (b := "subscription") (by decide +kernel), if_neg (by decide), if_pos h, if_pos h]
    · rw [if_neg h, if_neg h]
      split <;> rfl
  have hgo : ∀ e ∈ params, ∀ x : JNote, (x.param e.1 e.2).2 = true := by
    intro e he x
    unfold JNote.param
    split
    · rename_i hs
      have hs := (isField_iff (names_lower "subscription" (by decide))).mp hs
      rw [has_mem h1 he hs, uint64_of _ _ h2]
      rfl
    · split <;> rfl
  rw [putMembers_all hgo]
  refine ⟨rfl, ?_, ?_⟩
  · rw [fold_has (π := JNote.id) (name := "subscription") (g := fun _ => subid) (fun x k j hs => ?_) (fun x k hs => ?_) h1]
    · rw [hid, if_neg (fun e => hs ((isField_iff (names_lower "subscription" (by decide))).mp e))]
    · rw [hid, if_pos ((isField_iff (names_lower "subscription" (by decide))).mpr hs), uint64_of _ _ h2]
      rfl
  · rw [fold_has (π := JNote.result) (name := "result") (g := fun _ => some result) (fun x k j hs => ?_) (fun x k hs => ?_) h3]
    · rw [hre, if_neg (fun e => hs ((isField_iff (names_lower "result" (by decide))).mp e))]
    · rw [hre, if_pos ((isField_iff (names_lower "result" (by decide))).mpr hs)]

/-- A notification that is read, whatever was in the variable. -/
theorem read_notification {l : List (GoStr × Json)} {subid : Nat} {result : List (GoStr × Json)} (h : NoteSays l subid result) {message : Bytes}
    (hm : parseJson message = some (.obj l)) (n : JNote) : (n.read message).item subid = some (decItem (some (.obj result))) := by
  obtain ⟨method, params, sub, h1, h2, h3, h4, h5, h6⟩ := h
  have hr := read_params h4 h5 h6
  have hgo : ∀ e ∈ l, ∀ x : JNote, (x.member e.1 e.2).2 = true := by
    intro e he x
    unfold JNote.member
    split
    · rfl
    · split
      · rfl
      · split
        · rename_i hs
          have hs := (isField_iff (names_lower "params" (by decide))).mp hs
          rw [has_mem h3 he hs]
          exact (hr x).1
        · rfl
  have hpar : ∀ {β : Type} (π : JNote → β) (v : β), (∀ (x : JNote) k j, isField "params" k = false → π (x.member k j).1 = π x) →
      (∀ x, π (putMembers JNote.param x params).1 = v) → π (l.foldl (fun x e => (JNote.member x e.1 e.2).1) n) = v := by
    intro β π v hp hv
    refine fold_has (f := JNote.member) (π := π) (name := "params") (g := fun _ => v) (fun x k j hs => hp x k j ?_) (fun x k hs => ?_) h3 n
    · cases hi : isField "params" k with
      | false => rfl
      | true => exact absurd ((isField_iff (names_lower "params" (by decide))).mp hi) hs
    · have hs := (isField_iff (names_lower "params" (by decide))).mpr hs
      unfold JNote.member
      rw [field_unique hs (b := "jsonrpc") (by decide +kernel), field_unique hs (b := "method") (by decide +kernel), if_neg (by decide), if_neg (by decide), if_pos hs]
      exact hv x
  have hmeth : (l.foldl (fun x e => (JNote.member x e.1 e.2).1) n).method = str "cardinal_subscribe" := by
    refine fold_has (f := JNote.member) (π := JNote.method) (name := "method") (g := fun _ => str "cardinal_subscribe") (fun x k j hs => ?_) (fun x k hs => ?_) h1 n
    · rw [note_method_eq, if_neg (fun e => hs ((isField_iff (names_lower "method" (by decide))).mp e))]
    · rw [note_method_eq, if_pos ((isField_iff (names_lower "method" (by decide))).mpr hs)]
      simp only [putString, unquote_text h2, Option.getD_some]
  have hid := hpar JNote.id subid (fun x k j hk => by
    unfold JNote.member
    rw [hk]
    split
    · rfl
    · split
      · rfl
      · rfl) (fun x => (hr x).2.1)
  have hres := hpar JNote.result (some (.obj result)) (fun x k j hk => by
    unfold JNote.member
    rw [hk]
    split
    · rfl
    · split
      · rfl
      · rfl) (fun x => (hr x).2.2)
  unfold JNote.item JNote.read
  rw [hm]
  simp only []
  rw [putMembers_all hgo]
  simp only []
  rw [if_pos ⟨hmeth, hid⟩, hres]

/-- What the switch sees. -/
theorem meant_msg {l : List (GoStr × Json)} {ty : GoStr} {block : Option Block} {part : Option Part} (h : ItemSays l ty block part)
    (hw : ty = str "batch" → ∀ b, block = some b → b.weight ≠ none) : ∃ m, Meant ty block part m ∧ (decItem (some (.obj l))).msg = some m := by
  obtain ⟨h1, h2, h3⟩ := read_item h
  generalize decItem (some (.obj l)) = i at h1 h2 h3
  unfold JItem.msg
  rw [h1]
  by_cases t1 : ty = str "ready"
  · rw [if_pos t1]
    exact ⟨.ready, t1, rfl⟩
  · rw [if_neg t1]
    by_cases t2 : ty = str "reorg"
    · rw [if_pos t2]
      cases block with
      | none =>
        rw [show i.batch = none from h2]
        exact ⟨.hollow, .inl ⟨.inl t2, rfl⟩, rfl⟩
      | some b =>
        obtain ⟨r, hr, e1, e2, e3, e4, e5, e6, e7⟩ := h2
        rw [hr]
        exact ⟨.reorg r.number r.hash, ⟨t2, b, rfl, e1.symm, e3.symm⟩, rfl⟩
    · rw [if_neg t2]
      by_cases t3 : ty = str "batch"
      · rw [if_pos t3]
        cases block with
        | none =>
          rw [show i.batch = none from h2]
          exact ⟨.hollow, .inl ⟨.inr t3, rfl⟩, rfl⟩
        | some b =>
          obtain ⟨r, hr, e1, e2, e3, e4, e5, e6, e7⟩ := h2
          rw [hr]
          cases hb : b.weight with
          | none => exact absurd hb (hw t3 b rfl)
          | some w =>
            simp only []
            rw [e2, hb]
            exact ⟨.batch ⟨r.number, w, r.hash, r.parentHash, r.values, r.deletes, r.batches⟩, ⟨t3, b, w, rfl, hb, e1, rfl, e3, e4, e5, e6, e7⟩, rfl⟩
      · rw [if_neg t3]
        by_cases t4 : ty = str "subbatch"
        · rw [if_pos t4]
          cases part with
          | none =>
            rw [show i.sub = none from h3]
            exact ⟨.hollow, .inr ⟨t4, rfl⟩, rfl⟩
          | some s =>
            obtain ⟨r, hr, e1, e2, e3, e4⟩ := h3
            rw [hr]
            exact ⟨.sub r, ⟨t4, s, rfl, e1, e2, e3, e4⟩, rfl⟩
        · rw [if_neg t4]
          refine ⟨.unknown, ?_, rfl⟩
          intro t ht
          simp only [List.mem_cons, List.not_mem_nil, or_false] at ht
          rcases ht with rfl | rfl | rfl | rfl
          · exact t1
          · exact t2
          · exact t3
          · exact t4

end Verif
