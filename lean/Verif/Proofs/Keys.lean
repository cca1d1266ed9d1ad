import Verif.Model.Consumer
import Verif.Spec.Wire
import Verif.Proofs.GMap
/-! Message keys: layout lemmas. -/
namespace Verif
open Spec

theorem bytesToHash_bytes (h : Hash) : bytesToHash h.bytes = h := by
  obtain ⟨b, hb⟩ := h
  simp [bytesToHash, hb]

/-- The key the producer puts on a message (the `GetKey` calls of `delivery/producer.go:75,94,128,145,159,165,174,179`). -/
def keyOf (C : Codec) : MsgId → Bytes
  | .batch b => getKey BatchType [b.bytes]
  | .subHeader b i => getKey SubBatchHeaderType [b.bytes, i.bytes]
  | .subMsg b i n => getKey SubBatchMsgType [b.bytes, i.bytes, C.encInt n]
  | .update b p => getKey BatchMsgType [b.bytes, p]
  | .delete b p => getKey BatchDeleteMsgType [b.bytes, p]
  | .reorg b => getKey ReorgType [b.bytes]
  | .reorgDone b => getKey ReorgCompleteType [b.bytes]

/-- What follows type and block hash in a key. -/
def keyTail (C : Codec) : MsgId → Bytes
  | .subHeader _ i => i.bytes
  | .subMsg _ i n => i.bytes ++ C.encInt n
  | .update _ p => p
  | .delete _ p => p
  | _ => []

theorem keyOf_eq (C : Codec) (i : MsgId) : keyOf C i = i.type :: (i.block.bytes ++ keyTail C i) := by
  cases i <;> simp [keyOf, getKey, MsgId.type, MsgId.block, keyTail, BatchType, SubBatchHeaderType, SubBatchMsgType,
    BatchMsgType, BatchDeleteMsgType, ReorgType, ReorgCompleteType]

theorem keyOf_length (C : Codec) (i : MsgId) : ¬ (keyOf C i).length < 33 := by
  have := i.block.len
  rw [keyOf_eq]; simp; omega

theorem keyOf_headD (C : Codec) (i : MsgId) : (keyOf C i).headD 0 = i.type := by
  rw [keyOf_eq]; rfl

theorem keyOf_hash (C : Codec) (i : MsgId) : bytesToHash (((keyOf C i).drop 1).take 32) = i.block := by
  rw [keyOf_eq]
  have h : (i.block.bytes ++ keyTail C i).take 32 = i.block.bytes := by simp [← i.block.len]
  simp [h, bytesToHash_bytes]

theorem keyOf_drop33 (C : Codec) (i : MsgId) : (keyOf C i).drop 33 = keyTail C i := by
  rw [keyOf_eq]
  have h : (i.block.bytes ++ keyTail C i).drop 32 = keyTail C i := by simp [← i.block.len]
  simpa using h

theorem keyOf_subMsg_id (C : Codec) (b i : Hash) (n : Int) :
    bytesToHash (((keyOf C (.subMsg b i n)).drop 33).take 32) = i := by
  rw [keyOf_drop33]
  have h : (i.bytes ++ C.encInt n).take 32 = i.bytes := by simp [← i.len]
  simp [keyTail, h, bytesToHash_bytes]

theorem keyOf_subMsg_idx (C : Codec) (b i : Hash) (n : Int) :
    (keyOf C (.subMsg b i n)).drop 65 = C.encInt n := by
  have : (keyOf C (.subMsg b i n)).drop 65 = ((keyOf C (.subMsg b i n)).drop 33).drop 32 := by
    rw [List.drop_drop]
  rw [this, keyOf_drop33]
  simp [keyTail, ← i.len]

theorem keyOf_subMsg_length (C : Codec) (b i : Hash) (n : Int) :
    ¬ (keyOf C (.subMsg b i n)).length < 65 := by
  have h1 := b.len
  have h2 := i.len
  rw [keyOf_eq]; simp [keyTail, MsgId.block]; omega

theorem keyOf_injective {C : Codec} (hC : C.Lawful) {i j : MsgId} (hi : i.InRange) (hj : j.InRange)
    (h : keyOf C i = keyOf C j) : i = j := by
  have ht : i.type = j.type := by rw [← keyOf_headD C i, ← keyOf_headD C j, h]
  have hb : i.block = j.block := by rw [← keyOf_hash C i, ← keyOf_hash C j, h]
  have htl : keyTail C i = keyTail C j := by rw [← keyOf_drop33 C i, ← keyOf_drop33 C j, h]
  have hh : ∀ a b : Hash, a.bytes = b.bytes → a = b := by
    intro a b e; cases a; cases b; simp at e; subst e; rfl
  cases i <;> cases j <;> simp [MsgId.type, MsgId.block, keyTail] at ht hb htl ⊢
  all_goals try exact hb
  all_goals try exact ⟨hb, htl⟩
  all_goals try exact ⟨hb, hh _ _ htl⟩
  case subMsg b1 i1 n1 b2 i2 n2 =>
    have e1 : i1.bytes = i2.bytes ∧ C.encInt n1 = C.encInt n2 :=
      List.append_inj htl (by rw [i1.len, i2.len])
    have e2 := congrArg C.decInt e1.2
    rw [hC.int _ hi, hC.int _ hj] at e2
    exact ⟨hb, hh _ _ e1.1, by simpa using e2⟩

end Verif
