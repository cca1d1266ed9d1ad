import Verif.Model.Avro
import Verif.Proofs.GMap
/-! Round-trip of the concrete Avro codec. -/
namespace Verif.Avro

theorem wrap64_of_in {i : Int} (h : InInt64 i) : wrap64 i = i := by
  unfold wrap64 InInt64 at *; omega

theorem wrap32_of_in {i : Int} (h : InInt32 i) : wrap32 i = i := by
  unfold wrap32 InInt32 at *; omega

theorem wrap64_in (i : Int) : InInt64 (wrap64 i) := by unfold wrap64 InInt64; omega
theorem wrap32_in (i : Int) : InInt32 (wrap32 i) := by unfold wrap32 InInt32; omega

theorem unzigzag_zigzag (i : Int) : unzigzag (zigzag i) = i := by
  unfold unzigzag zigzag; split <;> split <;> omega

theorem zigzag_lt64 {i : Int} (h : InInt64 i) : zigzag i < 18446744073709551616 := by
  unfold zigzag InInt64 at *; split <;> omega

theorem zigzag_lt32 {i : Int} (h : InInt32 i) : zigzag i < 4294967296 := by
  unfold zigzag InInt32 at *; split <;> omega

theorem encVarint_ne_nil (n : Nat) : encVarint n ≠ [] := by
  unfold encVarint; split <;> simp

theorem decVarint_enc (fuel n : Nat) (rest : Bytes) (h : n < 128 ^ (fuel + 1)) :
    decVarint (fuel + 1) (encVarint n ++ rest) = some (n, rest) := by
  induction fuel generalizing n with
  | zero =>
    have : n < 128 := by simpa using h
    unfold encVarint
    simp only [this, if_true, List.cons_append, List.nil_append, decVarint]
    have e : (UInt8.ofNat n).toNat = n := by simp; omega
    simp [e, this]
  | succ fuel ih =>
    unfold encVarint
    by_cases hn : n < 128
    · simp only [hn, if_true, List.cons_append, List.nil_append, decVarint]
      have e : (UInt8.ofNat n).toNat = n := by simp; omega
      simp [e, hn]
    · simp only [hn, if_false, List.cons_append]
      have e : (UInt8.ofNat (n % 128 + 128)).toNat = n % 128 + 128 := by simp; omega
      have h2 : n / 128 < 128 ^ (fuel + 1) := by
        rw [Nat.div_lt_iff_lt_mul (by omega)]
        rwa [Nat.pow_succ] at h
      have h3 : ¬ (n % 128 + 128 < 128) := by omega
      rw [decVarint]
      simp only [e, h3, if_false, ih _ h2, Option.bind_eq_bind, Option.bind_some]
      simp only [Option.pure_def, Option.some.injEq, Prod.mk.injEq, and_true]
      omega

theorem decLong_enc (i : Int) (rest : Bytes) : decLong (encLong i ++ rest) = some (wrap64 i, rest) := by
  have h := zigzag_lt64 (wrap64_in i)
  unfold decLong encLong
  rw [decVarint_enc 9 _ _ (by omega)]
  simp [Nat.mod_eq_of_lt h, unzigzag_zigzag]

theorem decIntR_enc (i : Int) (rest : Bytes) : decIntR (encInt i ++ rest) = some (wrap32 i, rest) := by
  have h := zigzag_lt32 (wrap32_in i)
  unfold decIntR encInt
  rw [decVarint_enc 4 _ _ (by omega)]
  simp [Nat.mod_eq_of_lt h, unzigzag_zigzag]

theorem decBytes_enc (b rest : Bytes) (h : LenOK b) : decBytes (encBytes b ++ rest) = some (b, rest) := by
  unfold LenOK at h
  unfold decBytes encBytes
  have hw : wrap64 (b.length : Int) = b.length := wrap64_of_in ⟨by omega, by omega⟩
  rw [List.append_assoc, decLong_enc]
  simp only [hw, Option.bind_eq_bind, Option.bind_some]
  have h1 : ¬ ((b.length : Int) < 0) := by omega
  simp

theorem decHash_enc (h : Hash) (rest : Bytes) : decHash (h.bytes ++ rest) = some (h, rest) := by
  obtain ⟨b, hb⟩ := h
  have : 32 ≤ (b ++ rest).length := by simp [hb]
  unfold decHash
  simp only [this, dite_true]
  simp [← hb]

theorem decBool_enc (b : Bool) (rest : Bytes) : decBool (encBool b ++ rest) = some (b, rest) := by
  cases b <;> simp [decBool, encBool]

theorem decItems_enc {α : Type} (enc : α → Bytes) (dec : Bytes → Option (α × Bytes)) (xs : List α)
    (h : ∀ x ∈ xs, ∀ r, dec (enc x ++ r) = some (x, r)) (rest : Bytes) :
    decItems dec xs.length (xs.flatMap enc ++ rest) = some (xs, rest) := by
  induction xs with
  | nil => simp [decItems]
  | cons a xs ih =>
    simp only [List.length_cons, List.flatMap_cons, List.append_assoc, decItems]
    rw [h a (by simp)]
    simp only [Option.bind_eq_bind, Option.bind_some]
    rw [ih (fun x hx => h x (by simp [hx]))]
    simp

theorem encLong_length_pos (i : Int) : 0 < (encLong i).length :=
  List.length_pos_iff.mpr (encVarint_ne_nil _)

theorem decBlocks_enc {α : Type} (enc : α → Bytes) (dec : Bytes → Option (α × Bytes)) (fuel : Nat) :
    ∀ (xs : List α), (∀ x ∈ xs, ∀ r, dec (enc x ++ r) = some (x, r)) → LenOK xs → ∀ (rest : Bytes),
    (encBlocks enc xs).length ≤ fuel →
    decBlocks dec fuel (encBlocks enc xs ++ rest) = some (xs, rest) := by
  induction fuel with
  | zero =>
    intro xs _ _ rest hf
    exfalso
    rw [encBlocks] at hf
    split at hf
    · have := encLong_length_pos 0; omega
    · simp only [List.length_append] at hf
      split at hf
      · have := encLong_length_pos (-((xs.take 100).length : Int)); simp only [List.length_append] at hf; omega
      · have := encLong_length_pos ((xs.take 100).length : Int); omega
  | succ fuel ih =>
    intro xs h hl rest hf
    by_cases hx : xs = []
    · subst hx
      rw [encBlocks]
      simp only [dite_true]
      rw [decBlocks, decLong_enc]
      simp [wrap64]
    · have hpos : 0 < xs.length := List.length_pos_iff.mpr hx
      have hc0 : 0 < (xs.take 100).length := by simp; omega
      have hc1 : (xs.take 100).length ≤ 100 := by simp; omega
      have hw : wrap64 ((xs.take 100).length : Int) = (xs.take 100).length := wrap64_of_in ⟨by omega, by omega⟩
      have hwn : wrap64 (-((xs.take 100).length : Int)) = -((xs.take 100).length : Int) :=
        wrap64_of_in ⟨by omega, by omega⟩
      have htake : ∀ x ∈ xs.take 100, ∀ r, dec (enc x ++ r) = some (x, r) :=
        fun x hm => h x (List.mem_of_mem_take hm)
      have hdrop : ∀ x ∈ xs.drop 100, ∀ r, dec (enc x ++ r) = some (x, r) :=
        fun x hm => h x (List.mem_of_mem_drop hm)
      have hld : LenOK (xs.drop 100) := by unfold LenOK at *; simp; omega
      rw [encBlocks] at hf ⊢
      simp only [hx, dite_false] at hf ⊢
      split
      · rename_i hb
        simp only [hb, if_true, List.length_append] at hf
        have hf' : (encBlocks enc (xs.drop 100)).length ≤ fuel := by
          have := encLong_length_pos (-((xs.take 100).length : Int)); omega
        have := ih (xs.drop 100) hdrop hld rest hf'
        simp only [List.append_assoc]
        rw [decBlocks, decLong_enc]
        simp only [Option.bind_eq_bind, Option.bind_some, hwn]
        have n0 : ¬ (-((xs.take 100).length : Int) = 0) := by omega
        have n1 : -((xs.take 100).length : Int) < 0 := by omega
        simp only [n0, n1, if_false, if_true]
        rw [decLong_enc]
        simp only [Option.pure_def, Option.bind_some]
        have e : (- -((xs.take 100).length : Int)).toNat = (xs.take 100).length := by omega
        rw [e, decItems_enc enc dec _ htake]
        simp only [Option.bind_some]
        rw [this]
        simp
      · rename_i hb
        simp only [hb, if_false, List.length_append] at hf
        have hf' : (encBlocks enc (xs.drop 100)).length ≤ fuel := by
          have := encLong_length_pos ((xs.take 100).length : Int); omega
        have := ih (xs.drop 100) hdrop hld rest hf'
        simp only [List.append_assoc]
        rw [decBlocks, decLong_enc]
        simp only [Option.bind_eq_bind, Option.bind_some, hw]
        have n0 : ¬ (((xs.take 100).length : Int) = 0) := by omega
        have n1 : ¬ ((xs.take 100).length : Int) < 0 := by omega
        simp only [n0, n1, if_false, Option.pure_def, Option.bind_some]
        have e : (((xs.take 100).length : Int)).toNat = (xs.take 100).length := by omega
        rw [e, decItems_enc enc dec _ htake]
        simp only [Option.bind_some]
        rw [this]
        simp

theorem decRecord_enc (e : GoStr × BatchRecord) (rest : Bytes)
    (h : LenOK e.1 ∧ LenOK e.2.value ∧ InInt32 e.2.count) :
    decRecord (encRecord e ++ rest) = some (e, rest) := by
  have e1 : ∀ r, decBytes (encBytes e.1 ++ r) = some (e.1, r) := fun r => decBytes_enc _ r h.1
  have e2 : ∀ r, decBytes (encBytes e.2.value ++ r) = some (e.2.value, r) := fun r => decBytes_enc _ r h.2.1
  have e3 : ∀ r, decIntR (encInt e.2.count ++ r) = some (e.2.count, r) := fun r => by
    rw [decIntR_enc, wrap32_of_in h.2.2]
  unfold decRecord encRecord
  rw [List.append_assoc, List.append_assoc, List.append_assoc, List.append_assoc, e1, Option.bind_some]
  dsimp only
  rw [e2, Option.bind_some]; dsimp only
  rw [e3, Option.bind_some]; dsimp only
  rw [decBool_enc, Option.bind_some]; dsimp only
  rw [decHash_enc, Option.bind_some]

theorem decKV_enc (e : GoStr × Bytes) (rest : Bytes) (h : LenOK e.1 ∧ LenOK e.2) :
    decKV (encKV e ++ rest) = some (e, rest) := by
  unfold encKV decKV
  rw [List.append_assoc, decBytes_enc _ _ h.1, Option.bind_some]; dsimp only
  rw [decBytes_enc _ _ h.2, Option.bind_some]

theorem decBatch_enc (b : Batch) (h : b.InRange) : decBatch (encBatch b) = some b := by
  obtain ⟨h1, h2, h3, h4⟩ := h
  have hb := decBlocks_enc encRecord decRecord ((encBlocks encRecord b.updates.entries).length + 1) b.updates.entries
    (fun e he r => decRecord_enc e r (h4 e he)) h3 [] (by omega)
  rw [List.append_nil] at hb
  unfold encBatch decBatch
  rw [List.append_assoc, List.append_assoc, decLong_enc, Option.bind_some]; dsimp only
  rw [decBytes_enc _ _ h2, Option.bind_some]; dsimp only
  rw [decHash_enc, Option.bind_some]; dsimp only
  rw [hb, Option.bind_some]; dsimp only
  rw [GMap.ofList_self, wrap64_of_in h1]

theorem decSub_enc (r : SubBatchRecord) (h : r.InRange) : decSub (encSub r) = some r := by
  obtain ⟨h1, h2, h3, h4⟩ := h
  have hb := decBlocks_enc encKV decKV ((encBlocks encKV r.updates.entries).length + 1) r.updates.entries
    (fun e he r => decKV_enc e r (h4 e he)) h3 [] (by omega)
  rw [List.append_nil] at hb
  unfold encSub decSub
  rw [decBlocks_enc encBytes decBytes _ r.delete (fun e he r => decBytes_enc e r (h2 e he)) h1 _
    (by simp only [List.length_append]; omega), Option.bind_some]; dsimp only
  rw [hb, Option.bind_some]; dsimp only
  rw [GMap.ofList_self]

/-- The concrete codec satisfies everything the other theorems assume of a codec. -/
theorem codec_lawful : codec.Lawful where
  int := fun i h => by
    have := decIntR_enc i []
    rw [List.append_nil] at this
    simp [codec, this, wrap32_of_in h]
  batch := fun b h => decBatch_enc b h
  sub := fun r h => decSub_enc r h

end Verif.Avro
