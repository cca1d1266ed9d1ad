import Verif.Proofs.Producer
/-! Lemmas about `SendBatch`. -/
namespace Verif
open Spec

theorem strLe_refl (a : GoStr) : strLe a a = true := by
  induction a with
  | nil => rfl
  | cons x a ih => simp [strLe, ih]

theorem strLe_total (a b : GoStr) : (strLe a b || strLe b a) = true := by
  induction a generalizing b with
  | nil => simp [strLe]
  | cons x a ih =>
    cases b with
    | nil => simp [strLe]
    | cons y b =>
      have h := ih b
      simp only [strLe, Bool.or_eq_true, Bool.and_eq_true, decide_eq_true_eq, beq_iff_eq] at h ⊢
      by_cases e : x = y
      · subst e; grind
      · have := UInt8.lt_or_lt_of_ne e; grind

theorem strLe_trans (a b c : GoStr) (h1 : strLe a b = true) (h2 : strLe b c = true) : strLe a c = true := by
  induction a generalizing b c with
  | nil => simp [strLe]
  | cons x a ih =>
    cases b with
    | nil => simp [strLe] at h1
    | cons y b =>
      cases c with
      | nil => simp [strLe] at h2
      | cons z c =>
        simp only [strLe, Bool.or_eq_true, Bool.and_eq_true, decide_eq_true_eq, beq_iff_eq] at h1 h2 ⊢
        rcases h1 with h1 | ⟨rfl, h1⟩
        · rcases h2 with h2 | ⟨rfl, h2⟩
          · exact .inl (UInt8.lt_trans h1 h2)
          · exact .inl h1
        · rcases h2 with h2 | ⟨rfl, h2⟩
          · exact .inl h2
          · exact .inr ⟨rfl, ih _ _ h1 h2⟩

theorem strLe_antisymm (a b : GoStr) (h1 : strLe a b = true) (h2 : strLe b a = true) : a = b := by
  induction a generalizing b with
  | nil => cases b with
    | nil => rfl
    | cons => simp [strLe] at h2
  | cons x a ih =>
    cases b with
    | nil => simp [strLe] at h1
    | cons y b =>
      simp only [strLe, Bool.or_eq_true, Bool.and_eq_true, decide_eq_true_eq, beq_iff_eq] at h1 h2
      rcases h1 with h1 | ⟨rfl, h1⟩
      · rcases h2 with h2 | ⟨rfl, h2⟩
        · exact absurd (UInt8.lt_trans h1 h2) (UInt8.lt_irrefl _)
        · exact absurd h1 (UInt8.lt_irrefl _)
      · rcases h2 with h2 | ⟨_, h2⟩
        · exact absurd h2 (UInt8.lt_irrefl _)
        · rw [ih _ h1 h2]

/-- Sorting forgets the iteration order. -/
theorem sort_ord (o o' : MapOrder) (n n' : Nat) {V : Type} (m : GMap GoStr V) :
    ((o.ord n m.entries).map Prod.fst).mergeSort strLe = ((o'.ord n' m.entries).map Prod.fst).mergeSort strLe := by
  apply List.Perm.eq_of_pairwise (le := fun a b => strLe a b = true)
  · intro a b _ _ h1 h2; exact strLe_antisymm a b h1 h2
  · exact List.pairwise_mergeSort strLe_trans strLe_total _
  · exact List.pairwise_mergeSort strLe_trans strLe_total _
  · refine (List.mergeSort_perm _ _).trans (List.Perm.trans ?_ (List.mergeSort_perm _ _).symm)
    exact ((o.perm n m.entries).trans (o'.perm n' m.entries).symm).map _

theorem subUpdateMsgs_eq (C : Codec) (block batchid : Hash) (n : Nat) (l : List (GoStr × Bytes)) :
    subUpdateMsgs C block batchid n l =
      l.mapIdx (fun i e => (⟨keyOf C (.subMsg block batchid ((n + i : Nat) : Int)),
        C.encSub { delete := [], updates := GMap.empty.insert e.1 e.2 }⟩ : Msg)) := by
  induction l generalizing n with
  | nil => simp [subUpdateMsgs]
  | cons e l ih =>
    obtain ⟨k, v⟩ := e
    simp only [subUpdateMsgs, ih, List.mapIdx_cons, Nat.add_zero]
    congr 1
    apply congrArg (fun f => List.mapIdx f l)
    funext i e
    rw [show n + 1 + i = n + (i + 1) by omega]

/-- The records of a sub-batch, in order. -/
def subRecords (deletes : List GoStr) (keys : List GoStr) (update : GMap GoStr Bytes) : List SubBatchRecord :=
  (if deletes = [] then [] else [{ delete := deletes, updates := GMap.empty }]) ++
  keys.map (fun k => { delete := [], updates := GMap.empty.insert k ((update.get? k).getD []) })

/-- The messages of a sub-batch, in order. -/
def subMsgs (C : Codec) (block batchid : Hash) (recs : List SubBatchRecord) : List Msg :=
  ⟨keyOf C (.subHeader block batchid), C.encInt recs.length⟩ ::
    recs.mapIdx (fun i r => ⟨keyOf C (.subMsg block batchid i), C.encSub r⟩)

/-- Keys in ascending order. -/
def sortedKeys {V : Type} (m : GMap GoStr V) : List GoStr := m.keys.mergeSort strLe

theorem mapIdx_map' {α β γ : Type} (f : Nat → β → γ) (g : α → β) (l : List α) :
    (l.map g).mapIdx f = l.mapIdx (fun i x => f i (g x)) := by
  induction l generalizing f with
  | nil => rfl
  | cons a l ih => simp [List.mapIdx_cons, ih]

theorem sendBatch_some {C : Codec} {o : MapOrder} {p : Producer} {id : Hash} {deletes : List GoStr}
    {update : GMap GoStr Bytes} {bi : BatchInfo} (h : p.pendingBatches.get? id = some bi) :
    sendBatch C o p id deletes update =
      ({ p with pendingBatches := p.pendingBatches.erase id },
       .ok (GMap.empty.insert bi.topic (subMsgs C bi.block id (subRecords deletes (sortedKeys update) update)))) := by
  have hs : ((o.ord 0 update.entries).map Prod.fst).mergeSort strLe = sortedKeys update :=
    sort_ord o MapOrder.plain 0 0 update
  unfold sendBatch
  simp only [h, hs, subUpdateMsgs_eq]
  by_cases hd : deletes = []
  · subst hd
    simp only [subMsgs, subRecords, List.length_nil, Nat.lt_irrefl, if_false, List.nil_append, mapIdx_map',
      List.length_mapIdx, List.length_map, Nat.zero_add, if_true, gt_iff_lt]
    rfl
  · have : deletes.length > 0 := List.length_pos_iff.mpr hd
    simp only [subMsgs, subRecords, hd, this, if_true, if_false, List.mapIdx_append, mapIdx_map',
      List.length_mapIdx, List.length_map, List.length_append, List.length_cons, List.length_nil, Nat.zero_add,
      Nat.add_comm 1]
    rfl

end Verif
