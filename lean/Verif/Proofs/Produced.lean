import Verif.Proofs.Deliver
import Verif.Props.Producer
import Verif.Spec.Block
/-! From the producer's calls to the consistent messages of one block. -/
namespace Verif
open Spec Path

theorem bytesNat_snoc (b : Bytes) (x : UInt8) : bytesNat (b ++ [x]) = bytesNat b * 256 + x.toNat := by simp [bytesNat]

theorem bytesNat_natBytes (n : Nat) : bytesNat (natBytes n) = n := by
  induction n using Nat.strongRecOn with
  | _ n ih =>
    rw [natBytes]
    split
    · rename_i h; subst h; rfl
    · rw [bytesNat_snoc, ih _ (by omega)]
      have : (UInt8.ofNat (n % 256)).toNat = n % 256 := by simp
      rw [this]; omega

theorem nodup_length_le {α : Type} [DecidableEq α] {l l' : List α} (hn : l.Nodup) (hs : l ⊆ l') : l.length ≤ l'.length := by
  induction l generalizing l' with
  | nil => simp
  | cons a l ih =>
    have ha : a ∈ l' := hs (List.mem_cons_self ..)
    obtain ⟨h1, h2⟩ := List.nodup_cons.mp hn
    have := ih (l' := l'.erase a) h2 (fun x hx =>
      (List.mem_erase_of_ne (by rintro rfl; exact h1 hx)).mpr (hs (List.mem_cons_of_mem _ hx)))
    rw [List.length_erase_of_mem ha] at this
    have := List.length_pos_of_mem ha
    simp; omega

/-- The block as its messages describe it. -/
def blkOf (schema : List RegexpPair) (a : BlockArgs) (subs : Hash → SubArgs) (b : Batch) : Blk where
  hash := a.hash
  hdr := b
  upd := a.updates.filter (fun k _ => ¬ Unrouted schema k)
  del := a.deletes.filter (fun k _ => ¬ Unrouted schema k)
  pre k := ((firstMatch schema k).map Prod.fst).getD []
  recs id := subRecords (subs id).deletes (sortedKeys (subs id).updates) (subs id).updates

/-- `b` is the header `AddBlock` makes. -/
structure HeaderOf (schema : List RegexpPair) (a : BlockArgs) (b : Batch) : Prop where
  number : b.number = a.number
  weight : b.weight = natBytes a.weight.natAbs
  parent : b.parentHash = a.parentHash
  entries : ∀ k, b.updates.get? k = headerRec schema a.updates a.deletes a.batches k
  valid : ¬ Invalid schema a.updates a.deletes a.batches

section
variable {schema : List RegexpPair} {a : BlockArgs} {subs : Hash → SubArgs} {b : Batch} {tracked : GoStr → Bool}

theorem HeaderOf.cases (h : HeaderOf schema a b) {x : GoStr} {r : BatchRecord} (hr : b.updates.get? x = some r) :
    (Counted schema a.updates a.deletes x ∧ r = { count := (blockCount schema a.updates a.deletes x : Int) }) ∨
    (blockCount schema a.updates a.deletes x = 0 ∧ ∃ id, a.batches.get? x = some id ∧ r = { subbatch := id }) ∨
    (blockCount schema a.updates a.deletes x = 0 ∧ Unrouted schema x ∧ x ∈ a.deletes.keys ∧ r = { delete := true }) ∨
    (blockCount schema a.updates a.deletes x = 0 ∧ Unrouted schema x ∧ ∃ v, a.updates.get? x = some v ∧ r = { value := v }) := by
  rw [h.entries] at hr
  unfold headerRec at hr
  by_cases hc : blockCount schema a.updates a.deletes x = 0
  · simp only [hc, if_true, Option.none_or] at hr
    cases hb : a.batches.get? x with
    | some id =>
      simp only [hb, Option.map_some, Option.some_or, Option.some.injEq] at hr
      exact .inr (.inl ⟨hc, id, rfl, hr.symm⟩)
    | none =>
      simp only [hb, Option.map_none, Option.none_or] at hr
      unfold inlineRec at hr
      split at hr
      · rename_i hu
        cases hd : a.deletes.get? x with
        | some u =>
          simp only [hd, Option.map_some, Option.some_or, Option.some.injEq] at hr
          exact .inr (.inr (.inl ⟨hc, hu, (GMap.mem_keys_iff _).mpr ⟨u, hd⟩, hr.symm⟩))
        | none =>
          simp only [hd, Option.map_none, Option.none_or, Option.map_eq_some_iff] at hr
          obtain ⟨v, hv, rfl⟩ := hr
          exact .inr (.inr (.inr ⟨hc, hu, v, hv, rfl⟩))
      · simp at hr
  · rw [if_neg hc] at hr
    simp only [Option.some_or, Option.some.injEq] at hr
    exact .inl ⟨blockCount_pos_iff.mp hc, hr.symm⟩

theorem HeaderOf.counted (h : HeaderOf schema a b) {x : GoStr} (hc : Counted schema a.updates a.deletes x) :
    b.updates.get? x = some { count := (blockCount schema a.updates a.deletes x : Int) } := by
  rw [h.entries]; unfold headerRec
  rw [if_neg (blockCount_pos_iff.mpr hc)]; rfl

theorem HeaderOf.batch (h : HeaderOf schema a b) {x : GoStr} {id : Hash} (hb : a.batches.get? x = some id) :
    b.updates.get? x = some { subbatch := id } := by
  rw [h.entries]; unfold headerRec
  have : blockCount schema a.updates a.deletes x = 0 := by
    refine Classical.byContradiction fun hc => ?_
    exact h.valid (.inr (.inr ⟨x, blockCount_pos_iff.mp hc, .inr ((GMap.mem_keys_iff _).mpr ⟨id, hb⟩)⟩))
  simp [this, hb]

theorem HeaderOf.inl (h : HeaderOf schema a b) {x : GoStr} (hi : Inline schema a.updates a.deletes x) :
    b.updates.get? x = inlineRec schema a.updates a.deletes x := by
  rw [h.entries]; unfold headerRec
  have h1 : blockCount schema a.updates a.deletes x = 0 := by
    refine Classical.byContradiction fun hc => ?_
    exact h.valid (.inr (.inr ⟨x, blockCount_pos_iff.mp hc, .inl hi⟩))
  have h2 : a.batches.get? x = none := by
    cases hb : a.batches.get? x with
    | none => rfl
    | some id => exact absurd (.inr (.inl ⟨x, (GMap.mem_keys_iff _).mpr ⟨id, hb⟩, hi⟩)) h.valid
  simp [h1, h2]

theorem HeaderOf.sub (h : HeaderOf schema a b) {id : Hash} :
    (blkOf schema a subs b).Sub id ↔ ∃ path, a.batches.get? path = some id := by
  constructor
  · rintro ⟨x, r, hr, hs, hz⟩
    rcases h.cases hr with ⟨_, rfl⟩ | ⟨_, i, hi, rfl⟩ | ⟨_, _, _, rfl⟩ | ⟨_, _, v, _, rfl⟩
    · exact absurd hs.symm hz
    · exact ⟨x, by rw [hi]; exact congrArg some hs⟩
    · exact absurd hs.symm hz
    · exact absurd hs.symm hz
  · rintro ⟨x, hx⟩
    refine ⟨x, _, h.batch hx, rfl, ?_⟩
    rintro rfl
    exact h.valid (.inl ⟨x, hx⟩)

theorem HeaderOf.live (h : HeaderOf schema a b) {id : Hash} :
    (blkOf schema a subs b).Live tracked id ↔ ∃ path, a.batches.get? path = some id ∧ tracked path = true := by
  constructor
  · rintro ⟨x, r, hr, ht, hs, hz⟩
    rcases h.cases hr with ⟨_, rfl⟩ | ⟨_, i, hi, rfl⟩ | ⟨_, _, _, rfl⟩ | ⟨_, _, v, _, rfl⟩
    · exact absurd hs.symm hz
    · exact ⟨x, by rw [hi]; exact congrArg some hs, ht⟩
    · exact absurd hs.symm hz
    · exact absurd hs.symm hz
  · rintro ⟨x, hx, ht⟩
    refine ⟨x, _, h.batch hx, ht, rfl, ?_⟩
    rintro rfl
    exact h.valid (.inl ⟨x, hx⟩)

theorem cnt_eq {α : Type} (schema : List RegexpPair) (x : GoStr) (m : GMap GoStr α) :
    ((m.filter (fun k _ => ¬ Unrouted schema k)).keys.filter
      (fun k => ((firstMatch schema k).map Prod.fst).getD [] = x)).length = cnt schema x m.entries := by
  unfold cnt GMap.keys GMap.filter
  simp only []
  rw [List.filter_map, List.length_map, List.filter_filter]
  congr 1
  apply List.filter_congr
  intro e _
  cases hf : firstMatch schema e.1 with
  | none => have := firstMatch_none_iff.mp hf; simp [hf, this]
  | some y =>
    have : ¬ Unrouted schema e.1 := by rw [← firstMatch_none_iff, hf]; simp
    simp [hf, this]

theorem blkOf_total (x : GoStr) : (blkOf schema a subs b).total x = blockCount schema a.updates a.deletes x := by
  unfold Blk.total blockCount
  rw [← cnt_eq, ← cnt_eq]; rfl

theorem upd_get {k : GoStr} {v : Bytes} :
    (blkOf schema a subs b).upd.get? k = some v ↔ a.updates.get? k = some v ∧ ¬ Unrouted schema k := by
  simp [blkOf, GMap.get?_filter, Option.filter_eq_some_iff]

theorem upd_keys {k : GoStr} : k ∈ (blkOf schema a subs b).upd.keys ↔ k ∈ a.updates.keys ∧ ¬ Unrouted schema k := by
  rw [GMap.mem_keys_iff, GMap.mem_keys_iff]
  simp only [upd_get, exists_and_right]

theorem del_keys {k : GoStr} : k ∈ (blkOf schema a subs b).del.keys ↔ k ∈ a.deletes.keys ∧ ¬ Unrouted schema k := by
  rw [GMap.mem_keys_iff, GMap.mem_keys_iff]
  simp [blkOf, GMap.get?_filter, Option.filter_eq_some_iff]

/-- The prefix of a routed key. -/
theorem pre_routes {k : GoStr} (h : ¬ Unrouted schema k) : ∃ t, Routes schema k ((blkOf schema a subs b).pre k) t := by
  cases hf : firstMatch schema k with
  | none => exact absurd (firstMatch_none_iff.mp hf) h
  | some y =>
    obtain ⟨p, t⟩ := y
    refine ⟨t, ?_⟩
    simp only [blkOf, hf, Option.map_some, Option.getD_some]
    exact firstMatch_some_iff.mp hf

theorem pre_eq {k p t : GoStr} (h : Routes schema k p t) : (blkOf schema a subs b).pre k = p := by
  simp [blkOf, firstMatch_some_iff.mpr h]

theorem mem_sorted {V : Type} {m : GMap GoStr V} {k : GoStr} : k ∈ sortedKeys m ↔ k ∈ m.keys :=
  (List.mergeSort_perm _ _).mem_iff

theorem mem_subRecords {s : SubArgs} {r : SubBatchRecord} :
    r ∈ subRecords s.deletes (sortedKeys s.updates) s.updates ↔
      (s.deletes ≠ [] ∧ r = { delete := s.deletes, updates := GMap.empty }) ∨
      (∃ k v, s.updates.get? k = some v ∧ r = { delete := [], updates := GMap.empty.insert k v }) := by
  unfold subRecords
  simp only [List.mem_append, List.mem_map, mem_sorted]
  constructor
  · rintro (h | ⟨k, hk, rfl⟩)
    · split at h
      · simp at h
      · rename_i hne; simp at h; exact .inl ⟨hne, h⟩
    · obtain ⟨v, hv⟩ := (GMap.mem_keys_iff _).mp hk
      exact .inr ⟨k, v, hv, by simp [hv]⟩
  · rintro (⟨h1, rfl⟩ | ⟨k, v, hv, rfl⟩)
    · left; simp [h1]
    · exact .inr ⟨k, (GMap.mem_keys_iff _).mpr ⟨v, hv⟩, by simp [hv]⟩

theorem rec_upd {id : Hash} {k : GoStr} {v : Bytes} :
    (∃ r ∈ (blkOf schema a subs b).recs id, r.updates.get? k = some v) ↔ (subs id).updates.get? k = some v := by
  constructor
  · rintro ⟨r, hr, hk⟩
    rcases mem_subRecords.mp hr with ⟨_, rfl⟩ | ⟨k', v', hv, rfl⟩
    · simp at hk
    · simp only [GMap.get?_insert, GMap.get?_empty] at hk
      split at hk
      · rename_i e; subst e; cases hk; exact hv
      · simp at hk
  · intro h
    exact ⟨_, mem_subRecords.mpr (.inr ⟨k, v, h, rfl⟩), by simp⟩

theorem rec_del {id : Hash} {k : GoStr} :
    (∃ r ∈ (blkOf schema a subs b).recs id, k ∈ r.delete) ↔ k ∈ (subs id).deletes := by
  constructor
  · rintro ⟨r, hr, hk⟩
    rcases mem_subRecords.mp hr with ⟨_, rfl⟩ | ⟨k', v', hv, rfl⟩
    · exact hk
    · simp at hk
  · intro h
    exact ⟨_, mem_subRecords.mpr (.inl ⟨by intro e; rw [e] at h; simp at h, rfl⟩), h⟩

theorem recs_length (id : Hash) : ((blkOf schema a subs b).recs id).length ≤ (subs id).updates.size + 1 := by
  simp only [blkOf, subRecords, List.length_append, List.length_map]
  have : (sortedKeys (subs id).updates).length = (subs id).updates.size := by
    simp [sortedKeys, GMap.keys, GMap.size]
  split <;> simp <;> omega

theorem counted_of {k p t : GoStr} (hk : k ∈ a.updates.keys ∨ k ∈ a.deletes.keys) (h : Routes schema k p t) :
    Counted schema a.updates a.deletes p := ⟨k, t, hk, h⟩

theorem DirPrefix.isPrefix {p k : GoStr} (h : DirPrefix p k) : p <+: k := by
  rcases h with rfl | ⟨s, r, _, _, rfl, rfl⟩
  · exact List.prefix_refl _
  · exact ⟨r, rfl⟩

theorem blkOf_wf (h : HeaderOf schema a b) (hw : WellFormed schema a subs) : (blkOf schema a subs b).WF where
  upd_ne k v hk := hw.values k v (upd_get.mp hk).1
  key k hk := by
    have hk' : (k ∈ a.updates.keys ∨ k ∈ a.deletes.keys) ∧ ¬ Unrouted schema k := by
      rcases hk with hk | hk
      · have := upd_keys.mp hk; exact ⟨.inl this.1, this.2⟩
      · have := del_keys.mp hk; exact ⟨.inr this.1, this.2⟩
    obtain ⟨t, ht⟩ := pre_routes (a := a) (subs := subs) (b := b) hk'.2
    exact hw.dirs k _ t hk'.1 ht
  count x r hr := by
    rw [blkOf_total]
    rcases h.cases hr with ⟨_, rfl⟩ | ⟨hc, i, hi, rfl⟩ | ⟨hc, _, _, rfl⟩ | ⟨hc, _, v, _, rfl⟩
    · rfl
    all_goals simp [hc]
  counted k hk := by
    have hk' : (k ∈ a.updates.keys ∨ k ∈ a.deletes.keys) ∧ ¬ Unrouted schema k := by
      rcases hk with hk | hk
      · have := upd_keys.mp hk; exact ⟨.inl this.1, this.2⟩
      · have := del_keys.mp hk; exact ⟨.inr this.1, this.2⟩
    obtain ⟨t, ht⟩ := pre_routes (a := a) (subs := subs) (b := b) hk'.2
    exact ⟨_, h.counted (counted_of hk'.1 ht)⟩
  free x r k hr hc hk hx := by
    have hk' : (k ∈ a.updates.keys ∨ k ∈ a.deletes.keys) ∧ ¬ Unrouted schema k := by
      rcases hk with hk | hk
      · have := upd_keys.mp hk; exact ⟨.inl this.1, this.2⟩
      · have := del_keys.mp hk; exact ⟨.inr this.1, this.2⟩
    obtain ⟨t, ht⟩ := pre_routes (a := a) (subs := subs) (b := b) hk'.2
    have hcx : Counted schema a.updates a.deletes x := by
      rcases h.cases hr with ⟨hx, _⟩ | ⟨_, i, hi, rfl⟩ | ⟨_, _, _, rfl⟩ | ⟨_, _, v, _, rfl⟩
      · exact hx
      all_goals exact absurd rfl hc
    have hcp := counted_of hk'.1 ht
    have hp := DirPrefix.isPrefix (hw.dirs k _ t hk'.1 ht).2
    have hp' : (blkOf schema a subs b).pre k <+: k ++ [slash] := hp.trans (List.prefix_append _ _)
    rcases List.prefix_or_prefix_of_prefix hx hp' with h1 | h1
    · exact hw.nested _ _ hcx hcp h1
    · exact (hw.nested _ _ hcp hcx h1).symm
  inlineUpd x r hr hv hx := by
    have hx' := upd_keys.mp hx
    rcases h.cases hr with ⟨_, rfl⟩ | ⟨_, i, hi, rfl⟩ | ⟨_, _, _, rfl⟩ | ⟨_, hu, v, _, rfl⟩
    · exact hv rfl
    · exact hv rfl
    · exact hv rfl
    · exact hx'.2 hu
  inlineDel x r hr hv hx := by
    have hx' := del_keys.mp hx
    rcases h.cases hr with ⟨_, rfl⟩ | ⟨_, i, hi, rfl⟩ | ⟨_, hu, _, rfl⟩ | ⟨_, hu, v, _, rfl⟩
    · simp at hv
    · simp at hv
    · exact hx'.2 hu
    · exact hx'.2 hu
  subUpd id r k v hs hr hk hx := by
    obtain ⟨path, hp⟩ := h.sub.mp hs
    have := rec_upd.mp ⟨r, hr, hk⟩
    exact hw.subUpd path id k hp ((GMap.mem_keys_iff _).mpr ⟨v, this⟩) (upd_keys.mp hx).1
  subInline id r k v r' hs hr hk hr' := by
    obtain ⟨path, hp⟩ := h.sub.mp hs
    have := rec_upd.mp ⟨r, hr, hk⟩
    rcases h.cases hr' with ⟨_, rfl⟩ | ⟨_, i, hi, rfl⟩ | ⟨_, _, _, rfl⟩ | ⟨_, hu, v, hv, rfl⟩
    · rfl
    · rfl
    · rfl
    · exact absurd ((GMap.mem_keys_iff _).mpr ⟨v, hv⟩) (hw.subUpd path id k hp ((GMap.mem_keys_iff _).mpr ⟨_, this⟩))
  subFun id r k v id' r' v' hs hr hk hs' hr' hk' := by
    obtain ⟨path, hp⟩ := h.sub.mp hs
    obtain ⟨path', hp'⟩ := h.sub.mp hs'
    have h1 := rec_upd.mp ⟨r, hr, hk⟩
    have h2 := rec_upd.mp ⟨r', hr', hk'⟩
    have := hw.subFun path id k path' id' hp ((GMap.mem_keys_iff _).mpr ⟨_, h1⟩) hp' ((GMap.mem_keys_iff _).mpr ⟨_, h2⟩)
    subst this
    rw [h1] at h2; cases h2; rfl
  subDel id r k hs hr hk hx := by
    obtain ⟨path, hp⟩ := h.sub.mp hs
    have h1 := rec_del.mp ⟨r, hr, hk⟩
    have h2 := del_keys.mp hx
    exact h2.2 (hw.subDel path id k hp h1 h2.1)
  size id hs := by
    obtain ⟨path, hp⟩ := h.sub.mp hs
    have := hw.subSize path id hp
    have := recs_length (schema := schema) (a := a) (subs := subs) (b := b) id
    omega

theorem blkOf_expV (h : HeaderOf schema a b) (hw : WellFormed schema a subs) (k : GoStr) (v : Bytes) :
    (blkOf schema a subs b).ExpV tracked k v ↔ ExpectedValue tracked schema a subs k v := by
  unfold Blk.ExpV ExpectedValue
  constructor
  · rintro (⟨r, hr, ht, hv, hne⟩ | ⟨hk, ht⟩ | ⟨id, r, hl, hr, hk⟩)
    · rcases h.cases hr with ⟨_, rfl⟩ | ⟨_, i, hi, rfl⟩ | ⟨_, _, _, rfl⟩ | ⟨_, hu, w, hw', rfl⟩
      · exact absurd hv.symm hne
      · exact absurd hv.symm hne
      · exact absurd hv.symm hne
      · simp only at hv; subst hv; exact .inl ⟨hw', hu, ht⟩
    · obtain ⟨h1, h2⟩ := upd_get.mp hk
      obtain ⟨t, hr⟩ := pre_routes (a := a) (subs := subs) (b := b) h2
      exact .inr (.inl ⟨_, t, h1, hr, ht⟩)
    · obtain ⟨path, hp, ht⟩ := h.live.mp hl
      exact .inr (.inr ⟨path, id, hp, ht, rec_upd.mp ⟨r, hr, hk⟩⟩)
  · rintro (⟨hk, hu, ht⟩ | ⟨pre, t, hk, hr, ht⟩ | ⟨path, id, hp, ht, hk⟩)
    · left
      have hm : k ∈ a.updates.keys := (GMap.mem_keys_iff _).mpr ⟨v, hk⟩
      have hd : a.deletes.get? k = none := (GMap.get?_eq_none_iff _).mpr (hw.inline k hu hm)
      refine ⟨{ value := v }, ?_, ht, rfl, hw.values k v hk⟩
      have := h.inl (x := k) ⟨hu, .inl hm⟩
      simpa [inlineRec, hu, hd, hk, blkOf] using this
    · right; left
      exact ⟨upd_get.mpr ⟨hk, Routes.not_unrouted hr⟩, by rw [pre_eq hr]; exact ht⟩
    · right; right
      obtain ⟨r, hr, hk'⟩ := rec_upd (schema := schema) (a := a) (b := b).mpr hk
      exact ⟨id, r, h.live.mpr ⟨path, hp, ht⟩, hr, hk'⟩

theorem blkOf_expD (h : HeaderOf schema a b) (k : GoStr) :
    (blkOf schema a subs b).ExpD tracked k ↔ ExpectedDelete tracked schema a subs k := by
  unfold Blk.ExpD ExpectedDelete
  constructor
  · rintro (⟨r, hr, ht, hv⟩ | ⟨hk, ht⟩ | ⟨id, r, hl, hr, hk⟩)
    · rcases h.cases hr with ⟨_, rfl⟩ | ⟨_, i, hi, rfl⟩ | ⟨_, hu, hd, rfl⟩ | ⟨_, hu, w, hw', rfl⟩
      · simp at hv
      · simp at hv
      · exact .inl ⟨hd, hu, ht⟩
      · simp at hv
    · obtain ⟨h1, h2⟩ := del_keys.mp ((GMap.contains_iff_mem_keys _).mp hk)
      obtain ⟨t, hr⟩ := pre_routes (a := a) (subs := subs) (b := b) h2
      exact .inr (.inl ⟨_, t, h1, hr, ht⟩)
    · obtain ⟨path, hp, ht⟩ := h.live.mp hl
      exact .inr (.inr ⟨path, id, hp, ht, rec_del.mp ⟨r, hr, hk⟩⟩)
  · rintro (⟨hk, hu, ht⟩ | ⟨pre, t, hk, hr, ht⟩ | ⟨path, id, hp, ht, hk⟩)
    · left
      obtain ⟨u, hd⟩ := (GMap.mem_keys_iff _).mp hk
      refine ⟨{ delete := true }, ?_, ht, rfl⟩
      have := h.inl (x := k) ⟨hu, .inr hk⟩
      simpa [inlineRec, hu, hd, blkOf] using this
    · right; left
      exact ⟨(GMap.contains_iff_mem_keys _).mpr (del_keys.mpr ⟨hk, Routes.not_unrouted hr⟩), by rw [pre_eq hr]; exact ht⟩
    · right; right
      obtain ⟨r, hr, hk'⟩ := rec_del (schema := schema) (a := a) (b := b).mpr hk
      exact ⟨id, r, h.live.mpr ⟨path, hp, ht⟩, hr, hk'⟩

theorem LenOK.of_prefix {p k : GoStr} (h : p <+: k) (hk : LenOK k) : LenOK p := by
  have := h.length_le
  unfold LenOK at *; omega

theorem cnt_le {α : Type} (schema : List RegexpPair) (x : GoStr) (l : List (GoStr × α)) : cnt schema x l ≤ l.length :=
  List.length_filter_le _ _

theorem header_inRange (h : HeaderOf schema a b) (hw : WellFormed schema a subs) : b.InRange := by
  refine ⟨by rw [h.number]; exact hw.number, by rw [h.weight]; exact hw.lenWeight, ?_, ?_⟩
  · have hsub : b.updates.keys ⊆ (a.updates.keys ++ a.deletes.keys) ++ a.batches.keys ++
        (a.updates.keys ++ a.deletes.keys).map (blkOf schema a subs b).pre := by
      intro x hx
      obtain ⟨r, hr⟩ := (GMap.mem_keys_iff _).mp hx
      simp only [List.mem_append, List.mem_map]
      rcases h.cases hr with ⟨⟨k, t, hk, hr'⟩, _⟩ | ⟨_, i, hi, _⟩ | ⟨_, _, hd, _⟩ | ⟨_, _, v, hv, _⟩
      · exact .inr ⟨k, hk, pre_eq hr'⟩
      · exact .inl (.inr ((GMap.mem_keys_iff _).mpr ⟨i, hi⟩))
      · exact .inl (.inl (.inr hd))
      · exact .inl (.inl (.inl ((GMap.mem_keys_iff _).mpr ⟨v, hv⟩)))
    have hle := nodup_length_le b.updates.nodup hsub
    have h1 := hw.size
    have h2 := hw.lenBatches
    simp only [GMap.keys, List.length_append, List.length_map] at hle
    unfold GMap.size at h1 h2
    unfold LenOK
    omega
  · rintro ⟨x, r⟩ he
    have hr := (GMap.get?_eq_some_iff _).mpr he
    have h0 : LenOK ([] : Bytes) := by decide
    rcases h.cases hr with ⟨⟨k, t, hk, hr'⟩, rfl⟩ | ⟨_, i, hi, rfl⟩ | ⟨_, _, hd, rfl⟩ | ⟨_, _, v, hv, rfl⟩
    · refine ⟨?_, h0, ?_⟩
      · have hp := DirPrefix.isPrefix (hw.dirs k _ t hk hr').2
        refine LenOK.of_prefix hp ?_
        rcases hk with hk | hk
        · obtain ⟨v, hv⟩ := (GMap.mem_keys_iff _).mp hk
          exact (hw.lenUpd k v hv).1
        · exact hw.lenDel k hk
      · have h1 := hw.size
        have h2 := cnt_le schema x a.updates.entries
        have h3 := cnt_le schema x a.deletes.entries
        unfold GMap.size at h1
        simp only [InInt32, blockCount]
        omega
    · exact ⟨hw.lenPath x ((GMap.mem_keys_iff _).mpr ⟨i, hi⟩), h0, by simp only []; decide⟩
    · exact ⟨hw.lenDel x hd, h0, by simp only []; decide⟩
    · exact ⟨(hw.lenUpd x v hv).1, (hw.lenUpd x v hv).2, by simp only []; decide⟩

theorem rec_inRange (hw : WellFormed schema a subs) {path : GoStr} {id : Hash} (hp : a.batches.get? path = some id)
    {r : SubBatchRecord} (hr : r ∈ (blkOf schema a subs b).recs id) : r.InRange := by
  rcases mem_subRecords.mp hr with ⟨_, rfl⟩ | ⟨k, v, hv, rfl⟩
  · have := hw.lenSubDel path id hp
    exact ⟨this.1, this.2, by simp [GMap.empty, LenOK], by simp [GMap.empty]⟩
  · refine ⟨by simp [LenOK], by simp, by simp [GMap.empty, GMap.insert, GMap.put, LenOK], ?_⟩
    intro e he
    simp [GMap.empty, GMap.insert, GMap.put] at he
    subst he
    exact hw.lenSubUpd path id k v hp hv

end

/-- What the bridge gives: a consistent block, whose messages are the produced ones. -/
structure Bridge (C : Codec) (schema : List RegexpPair) (a : BlockArgs) (subs : Hash → SubArgs) (ms : List Msg) (b : Batch) :
    Prop where
  hdr : HeaderOf schema a b
  wf : (blkOf schema a subs b).WF
  mine : ∀ m ∈ ms, ∃ i, m.key = keyOf C i ∧ Blk.Mine C (blkOf schema a subs b) i m.value
  all : ∀ j, (blkOf schema a subs b).Part j ∨ j = .batch a.hash → ∃ m ∈ ms, m.key = keyOf C j

theorem bridgeSent {C : Codec} (hC : C.Lawful) {schema : List RegexpPair} {a : BlockArgs} {subs : Hash → SubArgs} {ms : List Msg}
    (hp : SentBy C schema a subs ms) (hw : WellFormed schema a subs) : ∃ b, Bridge C schema a subs ms b := by
  obtain ⟨o, p, p', tm, sent, rfl, hadd, hsent, hms⟩ := hp
  obtain ⟨b, hb1, hb2, hb3, hb4, hb5, hb6, _, _, hb9, _⟩ := addBlock_ok hadd
  have hH : HeaderOf p.schema a b := ⟨hb1, hb2, hb3, hb4, hb6⟩
  have hwf := blkOf_wf hH hw
  have hflat : ∀ m, m ∈ flat tm ↔
      (∃ e ∈ a.updates.entries, ¬ Unrouted p.schema e.1 ∧ m = ⟨keyOf C (.update a.hash e.1), e.2⟩) ∨
      (∃ e ∈ a.deletes.entries, ¬ Unrouted p.schema e.1 ∧ m = ⟨keyOf C (.delete a.hash e.1), []⟩) ∨
      m = ⟨keyOf C (.batch a.hash), C.encBatch b⟩ := by
    intro m
    rw [hb5, (flat_pushMsg _ _ _).mem_iff, List.mem_append, (abMid_flat o p a.hash a.updates a.deletes).mem_iff,
      List.mem_append, routedMsgs_eq, routedMsgs_eq]
    simp only [List.mem_map, List.mem_filter, List.mem_singleton, decide_eq_true_eq, or_assoc]
    constructor
    · rintro (⟨e, ⟨h1, h2⟩, rfl⟩ | ⟨e, ⟨h1, h2⟩, rfl⟩ | rfl)
      · exact .inl ⟨e, h1, h2, rfl⟩
      · exact .inr (.inl ⟨e, h1, h2, rfl⟩)
      · exact .inr (.inr rfl)
    · rintro (⟨e, h1, h2, rfl⟩ | ⟨e, h1, h2, rfl⟩ | rfl)
      · exact .inl ⟨e, ⟨h1, h2⟩, rfl⟩
      · exact .inr (.inl ⟨e, ⟨h1, h2⟩, rfl⟩)
      · exact .inr (.inr rfl)
  have hsub : ∀ path id, a.batches.get? path = some id →
      sent id = subMsgs C a.hash id ((blkOf p.schema a subs b).recs id) := by
    intro path id hpi
    obtain ⟨o', q, q', tm', hq, hs, he⟩ := hsent path id hpi
    obtain ⟨k, _, hk⟩ := hb9 id (List.mem_map.mpr ⟨(path, id), (GMap.get?_eq_some_iff _).mp hpi, rfl⟩)
    rw [sendBatch_some (hq.trans hk)] at hs
    simp only [Prod.mk.injEq, Except.ok.injEq] at hs
    rw [he, ← hs.2]
    simp [flat, GMap.insert, GMap.empty, GMap.put, blkOf]
  refine ⟨b, hH, hwf, ?_, ?_⟩
  · intro m hm
    rcases (hms m).mp hm with hm | ⟨path, id, hpi, hm⟩
    · rcases (hflat m).mp hm with ⟨e, h1, h2, rfl⟩ | ⟨e, h1, h2, rfl⟩ | rfl
      · exact ⟨_, rfl, .upd e.1 e.2 (upd_get.mpr ⟨(GMap.get?_eq_some_iff _).mpr h1, h2⟩)⟩
      · exact ⟨_, rfl, .del e.1 _ ((GMap.contains_iff_mem_keys _).mpr
          (del_keys.mpr ⟨List.mem_map.mpr ⟨e, h1, rfl⟩, h2⟩))⟩
      · exact ⟨_, rfl, .header _ b (hC.batch b (header_inRange hH hw)) (.refl b)⟩
    · rw [hsub path id hpi] at hm
      have hs : (blkOf p.schema a subs b).Sub id := hH.sub.mpr ⟨path, hpi⟩
      unfold subMsgs at hm
      rcases List.mem_cons.mp hm with rfl | hm
      · refine ⟨_, rfl, .subHeader id _ hs (hC.int _ ?_)⟩
        have := hwf.size id hs
        simp only [InInt32]; omega
      · obtain ⟨i, hi, he⟩ := List.mem_mapIdx.mp hm
        rw [← he]
        refine ⟨_, rfl, .subMsg id i _ _ _ hs (List.getElem?_eq_getElem hi) (hC.sub _ (rec_inRange hw hpi (List.getElem_mem hi))) (.refl _)⟩
  · intro j hj
    have hin : ∀ m, m ∈ flat tm → m ∈ ms := fun m h => (hms m).mpr (.inl h)
    rcases hj with hj | rfl
    · cases hj with
      | upd k hk =>
        obtain ⟨h1, h2⟩ := upd_keys.mp hk
        obtain ⟨v, hv⟩ := (GMap.mem_keys_iff _).mp h1
        exact ⟨_, hin _ ((hflat _).mpr (.inl ⟨(k, v), (GMap.get?_eq_some_iff _).mp hv, h2, rfl⟩)), rfl⟩
      | del k hk =>
        obtain ⟨h1, h2⟩ := del_keys.mp hk
        obtain ⟨v, hv⟩ := (GMap.mem_keys_iff _).mp h1
        exact ⟨_, hin _ ((hflat _).mpr (.inr (.inl ⟨(k, v), (GMap.get?_eq_some_iff _).mp hv, h2, rfl⟩))), rfl⟩
      | subHeader id hs =>
        obtain ⟨path, hpi⟩ := hH.sub.mp hs
        exact ⟨_, (hms _).mpr (.inr ⟨path, id, hpi, by rw [hsub path id hpi]; exact List.mem_cons_self ..⟩), rfl⟩
      | subMsg id i hs hi =>
        obtain ⟨path, hpi⟩ := hH.sub.mp hs
        refine ⟨⟨keyOf C (.subMsg a.hash id (i : Int)), C.encSub (((blkOf p.schema a subs b).recs id)[i])⟩,
          (hms _).mpr (.inr ⟨path, id, hpi, ?_⟩), rfl⟩
        rw [hsub path id hpi]
        refine List.mem_cons_of_mem _ (List.mem_mapIdx.mpr ⟨i, hi, rfl⟩)
    · exact ⟨_, hin _ ((hflat _).mpr (.inr (.inr rfl))), rfl⟩

/-! ### Several producers -/

theorem perm_of_get {K V : Type} [DecidableEq K] {m m' : GMap K V} (h : ∀ k, m'.get? k = m.get? k) : m'.entries.Perm m.entries := by
  have hn : ∀ m : GMap K V, m.entries.Nodup := fun m =>
    (List.pairwise_map.mp m.nodup).imp (fun h e => h (congrArg _ e))
  rw [List.perm_ext_iff_of_nodup (hn m') (hn m)]
  rintro ⟨k, v⟩
  rw [← GMap.get?_eq_some_iff, ← GMap.get?_eq_some_iff, h]

theorem keys_of_get {K V : Type} [DecidableEq K] {m m' : GMap K V} (h : ∀ k, m'.get? k = m.get? k) {k : K} : k ∈ m'.keys ↔ k ∈ m.keys := by
  rw [GMap.mem_keys_iff, GMap.mem_keys_iff, h]

theorem size_of_get {K V : Type} [DecidableEq K] {m m' : GMap K V} (h : ∀ k, m'.get? k = m.get? k) : m'.size = m.size :=
  (perm_of_get h).length_eq

theorem sortedKeys_of_get {V : Type} {m m' : GMap GoStr V} (h : ∀ k, m'.get? k = m.get? k) : sortedKeys m' = sortedKeys m := by
  have hs : ∀ m : GMap GoStr V, (sortedKeys m).Pairwise (fun x y => strLe x y = true) := fun m =>
    List.pairwise_mergeSort (fun a b c => strLe_trans a b c) (fun a b => strLe_total a b) _
  refine List.Perm.eq_of_pairwise (le := fun x y => strLe x y = true) (fun a b _ _ h1 h2 => strLe_antisymm a b h1 h2) (hs m') (hs m) ?_
  exact (List.mergeSort_perm _ _).trans (((perm_of_get h).map Prod.fst).trans (List.mergeSort_perm _ _).symm)

namespace Spec.SameGiven
variable {schema schema' : List RegexpPair} {a a' : BlockArgs} {subs subs' : Hash → SubArgs}

theorem refl (schema : List RegexpPair) (a : BlockArgs) (subs : Hash → SubArgs) : SameGiven schema a subs schema a subs :=
  ⟨rfl, rfl, rfl, rfl, fun _ => rfl, fun _ => rfl, fun _ => rfl, fun _ _ _ => .rfl, fun _ _ _ _ => rfl, fun _ _ _ => .refl _⟩

theorem keys (h : SameGiven schema a subs schema' a' subs') {k : GoStr} :
    k ∈ a'.updates.keys ∨ k ∈ a'.deletes.keys ↔ k ∈ a.updates.keys ∨ k ∈ a.deletes.keys := by
  rw [keys_of_get h.updates, keys_of_get h.deletes]

theorem unrouted_iff {schema : List RegexpPair} {k : GoStr} : Unrouted schema k ↔ ∀ pre t, ¬ Routes schema k pre t := by
  constructor
  · intro h pre t hr; exact Routes.not_unrouted hr h
  · intro h
    refine Classical.byContradiction fun hc => ?_
    cases hm : firstMatch schema k with
    | none => exact hc (firstMatch_none_iff.mp hm)
    | some x => exact h x.1 x.2 (firstMatch_some_iff.mp hm)

theorem unrouted (h : SameGiven schema a subs schema' a' subs') {k : GoStr} (hk : k ∈ a.updates.keys ∨ k ∈ a.deletes.keys) :
    Unrouted schema' k ↔ Unrouted schema k := by
  rw [unrouted_iff, unrouted_iff]
  constructor
  · intro h' pre t ht
    obtain ⟨t', ht'⟩ := (h.routes k pre hk).mpr ⟨t, ht⟩
    exact h' pre t' ht'
  · intro h' pre t ht
    obtain ⟨t', ht'⟩ := (h.routes k pre hk).mp ⟨t, ht⟩
    exact h' pre t' ht'

theorem counted (h : SameGiven schema a subs schema' a' subs') {x : GoStr} :
    Counted schema' a'.updates a'.deletes x ↔ Counted schema a.updates a.deletes x := by
  constructor
  · rintro ⟨k, t, hk, hr⟩
    obtain ⟨t', ht⟩ := (h.routes k x (h.keys.mp hk)).mp ⟨t, hr⟩
    exact ⟨k, t', h.keys.mp hk, ht⟩
  · rintro ⟨k, t, hk, hr⟩
    obtain ⟨t', ht⟩ := (h.routes k x hk).mpr ⟨t, hr⟩
    exact ⟨k, t', h.keys.mpr hk, ht⟩

theorem announced (h : SameGiven schema a subs schema' a' subs') {path : GoStr} {id : Hash} :
    a'.batches.get? path = some id ↔ a.batches.get? path = some id := by rw [h.batches]

theorem wellFormed (h : SameGiven schema a subs schema' a' subs') (hw : WellFormed schema a subs) : WellFormed schema' a' subs' where
  weight := by rw [h.weight]; exact hw.weight
  dirs k pre t hk hr := by
    obtain ⟨t', ht⟩ := (h.routes k pre (h.keys.mp hk)).mp ⟨t, hr⟩
    exact hw.dirs k pre t' (h.keys.mp hk) ht
  nested x y hx hy := hw.nested x y (h.counted.mp hx) (h.counted.mp hy)
  inline k hu hk := by
    rw [keys_of_get h.updates] at hk
    rw [keys_of_get h.deletes]
    exact hw.inline k ((h.unrouted (.inl hk)).mp hu) hk
  subUpd path id k hp hk := by
    have hp := h.announced.mp hp
    rw [keys_of_get (h.subUpdates path id hp)] at hk
    rw [keys_of_get h.updates]
    exact hw.subUpd path id k hp hk
  subFun path id k path' id' hp hk hp' hk' := by
    have hp := h.announced.mp hp
    have hp' := h.announced.mp hp'
    rw [keys_of_get (h.subUpdates path id hp)] at hk
    rw [keys_of_get (h.subUpdates path' id' hp')] at hk'
    exact hw.subFun path id k path' id' hp hk hp' hk'
  subDel path id k hp hk hd := by
    have hp := h.announced.mp hp
    rw [(h.subDeletes path id hp).mem_iff] at hk
    rw [keys_of_get h.deletes] at hd
    exact (h.unrouted (.inr hd)).mpr (hw.subDel path id k hp hk hd)
  size := by rw [size_of_get h.updates, size_of_get h.deletes]; exact hw.size
  subSize path id hp := by
    have hp := h.announced.mp hp
    rw [size_of_get (h.subUpdates path id hp)]; exact hw.subSize path id hp
  number := by rw [h.number]; exact hw.number
  lenWeight := by rw [h.weight]; exact hw.lenWeight
  lenBatches := by rw [size_of_get h.batches]; exact hw.lenBatches
  lenUpd k v hk := hw.lenUpd k v (by rw [← h.updates]; exact hk)
  lenDel k hk := hw.lenDel k (by rw [← keys_of_get h.deletes]; exact hk)
  lenPath k hk := hw.lenPath k (by rw [← keys_of_get h.batches]; exact hk)
  lenSubUpd path id k v hp hk := by
    have hp := h.announced.mp hp
    exact hw.lenSubUpd path id k v hp (by rw [← h.subUpdates path id hp]; exact hk)
  lenSubDel path id hp := by
    have hp := h.announced.mp hp
    have hd := h.subDeletes path id hp
    have := hw.lenSubDel path id hp
    refine ⟨?_, fun k hk => this.2 k (hd.mem_iff.mp hk)⟩
    have h1 := this.1
    unfold LenOK at h1 ⊢
    rw [hd.length_eq]; exact h1
  values k v hk := hw.values k v (by rw [← h.updates]; exact hk)

theorem matched (h : SameGiven schema a subs schema' a' subs') {k : GoStr} (hk : k ∈ a.updates.keys ∨ k ∈ a.deletes.keys) :
    (firstMatch schema' k).map Prod.fst = (firstMatch schema k).map Prod.fst := by
  have key : ∀ (s : List RegexpPair) pre, (firstMatch s k).map Prod.fst = some pre ↔ ∃ t, Routes s k pre t := by
    intro s pre
    rw [Option.map_eq_some_iff]
    constructor
    · rintro ⟨⟨p, t⟩, hp, rfl⟩; exact ⟨t, firstMatch_some_iff.mp hp⟩
    · rintro ⟨t, ht⟩; exact ⟨(pre, t), firstMatch_some_iff.mpr ht, rfl⟩
  apply Option.ext
  intro pre
  rw [key, key]
  exact h.routes k pre hk

theorem count (h : SameGiven schema a subs schema' a' subs') (x : GoStr) :
    blockCount schema' a'.updates a'.deletes x = blockCount schema a.updates a.deletes x := by
  have key : ∀ {α : Type} (l' l : List (GoStr × α)), l'.Perm l → (∀ e ∈ l, e.1 ∈ a.updates.keys ∨ e.1 ∈ a.deletes.keys) →
      cnt schema' x l' = cnt schema x l := by
    intro α l' l hp hl
    unfold cnt
    rw [(hp.filter _).length_eq]
    congr 1
    apply List.filter_congr
    intro e he
    rw [h.matched (hl e he)]
  unfold blockCount
  rw [key _ _ (perm_of_get h.updates) (fun e he => .inl (List.mem_map_of_mem (f := Prod.fst) he)),
    key _ _ (perm_of_get h.deletes) (fun e he => .inr (List.mem_map_of_mem (f := Prod.fst) he))]

theorem header (h : SameGiven schema a subs schema' a' subs') (x : GoStr) :
    headerRec schema' a'.updates a'.deletes a'.batches x = headerRec schema a.updates a.deletes a.batches x := by
  unfold headerRec
  rw [h.count, h.batches]
  congr 2
  unfold inlineRec
  rw [h.updates, h.deletes]
  by_cases hk : x ∈ a.updates.keys ∨ x ∈ a.deletes.keys
  · simp only [h.unrouted hk]
  · have h1 : a.updates.get? x = none := (GMap.get?_eq_none_iff _).mpr (fun hc => hk (.inl hc))
    have h2 : a.deletes.get? x = none := (GMap.get?_eq_none_iff _).mpr (fun hc => hk (.inr hc))
    simp [h1, h2]

theorem hdrLike (h : SameGiven schema a subs schema' a' subs') {b b' : Batch} (hb : HeaderOf schema a b) (hb' : HeaderOf schema' a' b') :
    Blk.HdrLike b' b :=
  ⟨by rw [hb'.number, hb.number, h.number], by rw [hb'.weight, hb.weight, h.weight], by rw [hb'.parent, hb.parent, h.parent],
    fun x => by rw [hb'.entries, hb.entries, h.header]⟩

theorem headerOf (h : SameGiven schema a subs schema' a' subs') {b : Batch} (hb : HeaderOf schema' a' b) : HeaderOf schema a b where
  number := by rw [hb.number, h.number]
  weight := by rw [hb.weight, h.weight]
  parent := by rw [hb.parent, h.parent]
  entries k := by rw [hb.entries, h.header]
  valid hi := by
    apply hb.valid
    have hinl : ∀ k, Inline schema a.updates a.deletes k → Inline schema' a'.updates a'.deletes k :=
      fun k hk => ⟨(h.unrouted hk.2).mpr hk.1, h.keys.mpr hk.2⟩
    rcases hi with ⟨k, hk⟩ | ⟨k, hk, hi⟩ | ⟨pre, hc, hi⟩
    · exact .inl ⟨k, h.announced.mpr hk⟩
    · exact .inr (.inl ⟨k, (keys_of_get h.batches).mpr hk, hinl k hi⟩)
    · exact .inr (.inr ⟨pre, h.counted.mpr hc, hi.imp (hinl pre) (keys_of_get h.batches).mpr⟩)

theorem recs (h : SameGiven schema a subs schema' a' subs') {b b' : Batch} {path : GoStr} {id : Hash} (hp : a.batches.get? path = some id) :
    ((blkOf schema' a' subs' b').recs id).length = ((blkOf schema a subs b).recs id).length ∧
    ∀ (i : Nat) r', ((blkOf schema' a' subs' b').recs id)[i]? = some r' → ∃ r, ((blkOf schema a subs b).recs id)[i]? = some r ∧ Blk.RecLike r' r := by
  have hu := h.subUpdates path id hp
  have hd := h.subDeletes path id hp
  have he : (subs' id).deletes = [] ↔ (subs id).deletes = [] := by
    rw [← List.length_eq_zero_iff, ← List.length_eq_zero_iff, hd.length_eq]
  have e : (sortedKeys (subs' id).updates).map (fun k => ({ delete := [], updates := GMap.empty.insert k (((subs' id).updates.get? k).getD []) } : SubBatchRecord)) =
      (sortedKeys (subs id).updates).map (fun k => { delete := [], updates := GMap.empty.insert k (((subs id).updates.get? k).getD []) }) := by
    rw [sortedKeys_of_get hu]
    simp only [hu]
  simp only [blkOf, subRecords]
  rw [e]
  by_cases h0 : (subs id).deletes = []
  · rw [if_pos h0, if_pos (he.mpr h0)]
    exact ⟨rfl, fun i r' hr => ⟨r', hr, .refl _⟩⟩
  · rw [if_neg h0, if_neg (fun hc => h0 (he.mp hc))]
    refine ⟨by simp, fun i r' hr => ?_⟩
    cases i with
    | zero =>
      simp only [List.cons_append, List.getElem?_cons_zero, Option.some.injEq] at hr ⊢
      subst hr
      exact ⟨_, rfl, fun _ => rfl, fun k => hd.mem_iff⟩
    | succ i =>
      simp only [List.cons_append, List.getElem?_cons_succ, List.nil_append] at hr ⊢
      exact ⟨r', hr, .refl _⟩

/-- The messages of the other producer are messages of the block. -/
theorem mine {C : Codec} (h : SameGiven schema a subs schema' a' subs') {b b' : Batch} (hb : HeaderOf schema a b) (hb' : HeaderOf schema' a' b')
    {j : MsgId} {v : Bytes} (hm : Blk.Mine C (blkOf schema' a' subs' b') j v) : Blk.Mine C (blkOf schema a subs b) j v := by
  have hh : (blkOf schema' a' subs' b').hash = (blkOf schema a subs b).hash := h.hash
  have hs : ∀ {id}, (blkOf schema' a' subs' b').Sub id → (blkOf schema a subs b).Sub id := by
    intro id hs
    obtain ⟨path, hp⟩ := hb'.sub.mp hs
    exact hb.sub.mpr ⟨path, h.announced.mp hp⟩
  cases hm with
  | header v c hc hl =>
    rw [hh]
    have := h.hdrLike hb hb'
    exact .header v c hc ⟨hl.number.trans this.number, hl.weight.trans this.weight, hl.parent.trans this.parent,
      fun x => (hl.entry x).trans (this.entry x)⟩
  | upd k v hk =>
    rw [hh]
    obtain ⟨h1, h2⟩ := upd_get.mp hk
    rw [h.updates] at h1
    exact .upd k v (upd_get.mpr ⟨h1, fun hc => h2 ((h.unrouted (.inl ((GMap.mem_keys_iff _).mpr ⟨v, h1⟩))).mpr hc)⟩)
  | del k v hk =>
    rw [hh]
    obtain ⟨h1, h2⟩ := del_keys.mp ((GMap.contains_iff_mem_keys _).mp hk)
    rw [keys_of_get h.deletes] at h1
    exact .del k v ((GMap.contains_iff_mem_keys _).mpr (del_keys.mpr ⟨h1, fun hc => h2 ((h.unrouted (.inr h1)).mpr hc)⟩))
  | subHeader id v hsub hd =>
    rw [hh]
    obtain ⟨path, hp⟩ := hb.sub.mp (hs hsub)
    rw [(h.recs (b := b) hp).1] at hd
    exact .subHeader id v (hs hsub) hd
  | subMsg id i r q v hsub hr hd hl =>
    rw [hh]
    obtain ⟨path, hp⟩ := hb.sub.mp (hs hsub)
    obtain ⟨r2, h1, h2⟩ := (h.recs (b := b) hp).2 i r hr
    exact .subMsg id i r2 q v (hs hsub) h1 hd ⟨fun k => (hl.upd k).trans (h2.upd k), fun k => (hl.del k).trans (h2.del k)⟩

theorem part (h : SameGiven schema a subs schema' a' subs') {b b' : Batch} (hb : HeaderOf schema a b) (hb' : HeaderOf schema' a' b')
    {j : MsgId} (hj : (blkOf schema a subs b).Part j) : (blkOf schema' a' subs' b').Part j := by
  have hh : (blkOf schema a subs b).hash = (blkOf schema' a' subs' b').hash := h.hash.symm
  have hs : ∀ {id}, (blkOf schema a subs b).Sub id → (blkOf schema' a' subs' b').Sub id := by
    intro id hs
    obtain ⟨path, hp⟩ := hb.sub.mp hs
    exact hb'.sub.mpr ⟨path, h.announced.mpr hp⟩
  cases hj with
  | upd k hk =>
    rw [hh]
    obtain ⟨h1, h2⟩ := upd_keys.mp hk
    exact .upd k (upd_keys.mpr ⟨(keys_of_get h.updates).mpr h1, fun hc => h2 ((h.unrouted (.inl h1)).mp hc)⟩)
  | del k hk =>
    rw [hh]
    obtain ⟨h1, h2⟩ := del_keys.mp hk
    exact .del k (del_keys.mpr ⟨(keys_of_get h.deletes).mpr h1, fun hc => h2 ((h.unrouted (.inr h1)).mp hc)⟩)
  | subHeader id hsub => rw [hh]; exact .subHeader id (hs hsub)
  | subMsg id i hsub hi =>
    rw [hh]
    obtain ⟨path, hp⟩ := hb.sub.mp hsub
    exact .subMsg id i (hs hsub) (by rw [(h.recs (b := b) hp).1]; exact hi)

end Spec.SameGiven

/-- The messages of redundant producers are those of one consistent block. -/
theorem bridge {C : Codec} (hC : C.Lawful) {schema : List RegexpPair} {a : BlockArgs} {subs : Hash → SubArgs} {ms : List Msg}
    (hp : Produced C schema a subs ms) (hw : WellFormed schema a subs) : ∃ b, Bridge C schema a subs ms b := by
  obtain ⟨hne, hms⟩ := hp
  obtain ⟨m0, hm0⟩ := List.exists_mem_of_ne_nil _ hne
  obtain ⟨schema', a', subs', ms', hsame, hsent, hin, hsub⟩ := hms m0 hm0
  obtain ⟨b, hb⟩ := bridgeSent hC hsent (hsame.wellFormed hw)
  have hH : HeaderOf schema a b := hsame.headerOf hb.hdr
  refine ⟨b, hH, blkOf_wf hH hw, ?_, ?_⟩
  · intro m hm
    obtain ⟨s2, a2, u2, ms2, hsame2, hsent2, hin2, _⟩ := hms m hm
    obtain ⟨b2, hb2⟩ := bridgeSent hC hsent2 (hsame2.wellFormed hw)
    obtain ⟨i, hk, hmine⟩ := hb2.mine m hin2
    exact ⟨i, hk, hsame2.mine hH hb2.hdr hmine⟩
  · intro j hj
    obtain ⟨m, hm, hk⟩ := hb.all j (hj.imp (hsame.part hH hb.hdr) (fun e => by rw [hsame.hash]; exact e))
    exact ⟨m, hsub m hm, hk⟩

/-- One producer is enough. -/
theorem Spec.SentBy.produced {C : Codec} {schema : List RegexpPair} {a : BlockArgs} {subs : Hash → SubArgs} {ms : List Msg}
    (h : SentBy C schema a subs ms) : Produced C schema a subs ms := by
  refine ⟨?_, fun m hm => ⟨schema, a, subs, ms, .refl .., h, hm, fun _ hx => hx⟩⟩
  obtain ⟨o, p, p', tm, sent, rfl, hadd, hsent, hms⟩ := h
  obtain ⟨b, _, _, _, _, hb5, _⟩ := addBlock_ok hadd
  have : (⟨keyOf C (.batch a.hash), C.encBatch b⟩ : Msg) ∈ ms := by
    refine (hms _).mpr (.inl ?_)
    rw [hb5, (flat_pushMsg _ _ _).mem_iff]
    exact List.mem_append_right _ (List.mem_singleton.mpr rfl)
  intro e; rw [e] at this; simp at this

end Verif
