import Verif.Proofs.Avro
import Verif.Proofs.Keys
import Verif.Proofs.Consumer
/-!
# C25, C26, C27: keys and wire encoding
-/
namespace Verif
open Spec

/-- **C25** (injectivity): equal keys mean the same type, block, path / sub-batch id and index. -/
theorem C25_keys_injective {C : Codec} (hC : C.Lawful) {i j : MsgId} (hi : i.InRange) (hj : j.InRange)
    (h : keyOf C i = keyOf C j) : i = j := keyOf_injective hC hi hj h

example : (MsgId.subMsg Hash.zero Hash.zero 300).InRange ∧
    keyOf Avro.codec (.subMsg Hash.zero Hash.zero 300) ≠ keyOf Avro.codec (.subMsg Hash.zero Hash.zero 301) := by
  refine ⟨by show InInt32 300; decide, fun h => ?_⟩
  have := C25_keys_injective Avro.codec_lawful (by show InInt32 300; decide) (by show InInt32 301; decide) h
  simp at this

/-- **C25** (recovery): the receiver's slicing of a key (`delivery/consumer.go:107-109,128,138,287,375`) recovers type, block
hash and path, or sub-batch id and index. -/
theorem C25_keys_recovered {C : Codec} (hC : C.Lawful) (i : MsgId) (hi : i.InRange) :
    (keyOf C i).head? = some i.type ∧
    bytesToHash (((keyOf C i).drop 1).take 32) = i.block ∧
    (∀ b p, i = .update b p ∨ i = .delete b p → (keyOf C i).drop 33 = p) ∧
    (∀ b id, i = .subHeader b id → bytesToHash ((keyOf C i).drop 33) = id) ∧
    (∀ b id n, i = .subMsg b id n →
      bytesToHash (((keyOf C i).drop 33).take 32) = id ∧ C.decInt ((keyOf C i).drop 65) = some n) := by
  refine ⟨by rw [keyOf_eq]; rfl, keyOf_hash C i, ?_, ?_, ?_⟩
  · rintro b p (rfl | rfl) <;> rw [keyOf_drop33] <;> rfl
  · rintro b id rfl; rw [keyOf_drop33]; exact bytesToHash_bytes id
  · rintro b id n rfl
    exact ⟨keyOf_subMsg_id C b id n, by rw [keyOf_subMsg_idx, hC.int n hi]⟩

example : (keyOf Avro.codec (.delete Hash.zero (str "a/b"))).drop 33 = str "a/b" :=
  (C25_keys_recovered Avro.codec_lawful (.delete Hash.zero (str "a/b")) trivial).2.2.1 _ _ (.inr rfl)

/-- **C26** for 32-bit integers. -/
theorem C26_int_roundtrip (i : Int) (h : InInt32 i) : Avro.codec.decInt (Avro.codec.encInt i) = some i :=
  Avro.codec_lawful.int i h

example : InInt32 (-2147483648) ∧ InInt32 2147483647 := by decide

/-- **C26** for batch headers of any size. -/
theorem C26_batch_roundtrip (b : Batch) (h : b.InRange) :
    Avro.codec.decBatch (Avro.codec.encBatch b) = some b := Avro.codec_lawful.batch b h

example : ∃ b : Batch, b.InRange ∧ b.updates.size = 2 ∧ b.number < 0 :=
  ⟨{ number := -5, weight := [1, 2], parentHash := Hash.zero,
     updates := (GMap.empty.insert (str "a/") { count := 3 }).insert (str "b") { value := [7], delete := true } },
   by simp only [Batch.InRange]; decide, by decide, by decide⟩

/-- **C26** for sub-batch records of any size. -/
theorem C26_sub_roundtrip (r : SubBatchRecord) (h : r.InRange) :
    Avro.codec.decSub (Avro.codec.encSub r) = some r := Avro.codec_lawful.sub r h

/-- A record with 250 deletes, more than two Avro blocks. -/
example : ∃ r : SubBatchRecord, r.InRange ∧ r.delete.length = 250 :=
  ⟨{ delete := List.replicate 250 (str "k"), updates := GMap.empty.insert (str "x") [1] },
   by refine ⟨by unfold LenOK; rw [List.length_replicate]; decide, ?_, by decide, by decide⟩
      intro d hd; rw [List.eq_of_mem_replicate hd]; decide,
   by rw [List.length_replicate]⟩

/-- The number whose big-endian digits to the base 256 are the bytes. -/
def Spec.bigEndian (b : Bytes) : Nat := b.foldl (fun n x => n * 256 + x.toNat) 0

theorem bigEndian_append (a b : Bytes) : bigEndian (a ++ b) = bigEndian a * 256 ^ b.length + bigEndian b := by
  unfold bigEndian
  rw [List.foldl_append]
  generalize a.foldl (fun n x => n * 256 + x.toNat) 0 = k
  suffices h : ∀ k m, b.foldl (fun n x => n * 256 + x.toNat) (k + m) = k * 256 ^ b.length + b.foldl (fun n x => n * 256 + x.toNat) m by
    simpa using h k 0
  induction b with
  | nil => simp
  | cons x b ih =>
    intro k m
    simp only [List.foldl_cons, List.length_cons]
    rw [show (k + m) * 256 + x.toNat = k * 256 + (m * 256 + x.toNat) by omega, ih, Nat.pow_succ', Nat.mul_assoc]

theorem bigEndian_lt (b : Bytes) : bigEndian b < 256 ^ b.length := by
  generalize hn : b.length = n
  induction n generalizing b with
  | zero => rw [List.length_eq_zero_iff.mp hn]; decide
  | succ n ih =>
    rcases List.eq_nil_or_concat b with h | ⟨l, x, h⟩
    · rw [h] at hn; cases hn
    · rw [List.concat_eq_append] at h
      subst h
      rw [List.length_append, List.length_singleton] at hn
      have h1 := ih l (by omega)
      have h2 : bigEndian [x] = x.toNat := by simp [bigEndian]
      have h3 := x.toNat_lt
      rw [bigEndian_append, h2, Nat.pow_succ]
      simp only [List.length_singleton, Nat.pow_one]
      omega

/-- **C25**, bytes of any length: a hash made of them is the number they stand for, modulo 2²⁵⁶. Shorter ones get zeros in front, of longer ones
the end counts. -/
theorem C25_any_length (b : Bytes) : bigEndian (bytesToHash b).bytes = bigEndian b % 2 ^ 256 := by
  have hz : ∀ k, bigEndian (List.replicate k 0) = 0 := by
    intro k
    induction k with
    | zero => rfl
    | succ k ih =>
      rw [List.replicate_succ', bigEndian_append, ih]
      simp [bigEndian]
  show bigEndian (List.replicate (32 - b.length) 0 ++ b.drop (b.length - 32)) = _
  rw [bigEndian_append, hz, Nat.zero_mul, Nat.zero_add]
  have h1 := bigEndian_append (b.take (b.length - 32)) (b.drop (b.length - 32))
  rw [List.take_append_drop] at h1
  have h2 := bigEndian_lt (b.drop (b.length - 32))
  have e : (2 : Nat) ^ 256 = 256 ^ 32 := by decide +kernel
  rw [e]
  by_cases hl : b.length ≤ 32
  · have : b.length - 32 = 0 := by omega
    rw [this, List.drop_zero] at h2 ⊢
    rw [Nat.mod_eq_of_lt]
    exact Nat.lt_of_lt_of_le h2 (Nat.pow_le_pow_right (by decide) hl)
  · have h3 : (b.drop (b.length - 32)).length = 32 := by rw [List.length_drop]; omega
    rw [h3] at h1 h2
    rw [h1, Nat.mul_add_mod', Nat.mod_eq_of_lt h2]

example : bytesToHash [1, 2] ≠ bytesToHash [2] := by decide +kernel

/-- **C27** refuted as stated: the number of a Reorg message is cut to 32 bits. -/
theorem C27_refuted : ∃ n : Int, InInt64 n ∧ ∃ n', n' ≠ n ∧
    Avro.codec.decInt (reorgMsg Avro.codec n Hash.zero).value = some n' :=
  ⟨2147483648, by decide, -2147483648, by decide, by decide +kernel⟩

/-- **C27**, the part that holds: inside the signed 32-bit range a Reorg message processed by any processor announces
exactly the number and hash given to `Producer.Reorg`. Missing: all larger numbers (`C27_refuted`). -/
theorem C27_partial {C : Codec} (hC : C.Lawful) (env : Env) (mp : MP) (n : Int) (hash : Hash) (hn : InInt32 n)
    (off : Int) (src : GoStr) :
    ∃ mp', mp.processMessage C env ⟨(reorgMsg C n hash).key, (reorgMsg C n hash).value, off, src⟩ = .ok (mp', none) ∧
      mp'.log = mp.log ++ [.reorg n hash] := by
  have h1 := keyOf_length C (.reorg hash)
  have h2 := keyOf_headD C (.reorg hash)
  have h3 : hashOf (keyOf C (.reorg hash)) = hash := keyOf_hash C (.reorg hash)
  have hk : (reorgMsg C n hash).key = keyOf C (.reorg hash) := rfl
  have hv : C.decInt (reorgMsg C n hash).value = some n := hC.int n hn
  have hl := (begin_fields env mp ⟨keyOf C (.reorg hash), (reorgMsg C n hash).value, off, src⟩).2.2.1
  unfold MP.processMessage
  generalize MP.step C env (fun _ _ => .error .hang) = self
  unfold MP.step
  simp only [hk, h1, h2, h3, if_false]
  simp only [MsgId.type, ReorgType, if_true, MP.onReorg, hv]
  exact ⟨_, rfl, by rw [hl]⟩

example : InInt32 15000000 := by decide

end Verif
