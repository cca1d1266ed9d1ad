import Verif.Spec.Producer
import Verif.Proofs.Keys
/-! Lemmas about `AddBlock` and `SendBatch`. -/
namespace Verif
open Spec

theorem firstMatch_cons (r : RegexpPair) (s : List RegexpPair) (k : GoStr) :
    firstMatch (r :: s) k = if r.find k ≠ [] then some (r.find k, r.topic) else firstMatch s k := by
  unfold firstMatch
  rw [List.findSome?_cons]
  by_cases h : r.find k = [] <;> simp [h]

theorem firstMatch_some_iff {schema : List RegexpPair} {k pre topic : GoStr} :
    firstMatch schema k = some (pre, topic) ↔ Routes schema k pre topic := by
  induction schema with
  | nil =>
    simp only [firstMatch, List.findSome?_nil, reduceCtorEq, false_iff]
    rintro ⟨b, r, a, h, _⟩; simp at h
  | cons r s ih =>
    rw [firstMatch_cons]
    by_cases h : r.find k = []
    · simp only [h, ne_eq, not_true, if_false, ih]
      constructor
      · rintro ⟨b, r', a, rfl, hb, h1, h2, h3⟩
        exact ⟨r :: b, r', a, rfl, by simpa [h] using hb, h1, h2, h3⟩
      · rintro ⟨b, r', a, hs, hb, h1, h2, h3⟩
        cases b with
        | nil => simp at hs; obtain ⟨rfl, rfl⟩ := hs; exact absurd (h1.symm.trans h) h2
        | cons x b =>
          simp at hs; obtain ⟨rfl, rfl⟩ := hs
          exact ⟨b, r', a, rfl, fun x hx => hb x (by simp [hx]), h1, h2, h3⟩
    · simp only [ne_eq, h, not_false_eq_true, if_true, Option.some.injEq, Prod.mk.injEq]
      constructor
      · rintro ⟨h1, h2⟩; exact ⟨[], r, s, rfl, by simp, h1, h1 ▸ h, h2⟩
      · rintro ⟨b, r', a, hs, hb, h1, h2, h3⟩
        cases b with
        | nil => simp at hs; obtain ⟨rfl, rfl⟩ := hs; exact ⟨h1, h3⟩
        | cons x b =>
          simp at hs; obtain ⟨rfl, rfl⟩ := hs
          exact absurd (hb r (by simp)) h

theorem firstMatch_none_iff {schema : List RegexpPair} {k : GoStr} :
    firstMatch schema k = none ↔ Unrouted schema k := by
  unfold firstMatch Unrouted
  rw [List.findSome?_eq_none_iff]
  constructor
  · intro h r hr
    have := h r hr
    by_cases e : r.find k = [] <;> simp_all
  · intro h r hr; simp [h r hr]

theorem Routes.not_unrouted {schema : List RegexpPair} {k pre topic : GoStr} (h : Routes schema k pre topic) :
    ¬ Unrouted schema k := by
  rw [← firstMatch_none_iff, firstMatch_some_iff.mpr h]; simp

/-- Number of keys matched to `pre`. -/
def cnt {α : Type} (schema : List RegexpPair) (pre : GoStr) (l : List (GoStr × α)) : Nat :=
  (l.filter (fun e => decide ((firstMatch schema e.1).map Prod.fst = some pre))).length

/-- The messages of routed keys, in order. -/
def routedMsgs {α : Type} (schema : List RegexpPair) (mk : GoStr → α → Msg) (l : List (GoStr × α)) : List Msg :=
  l.filterMap (fun e => (firstMatch schema e.1).map (fun _ => mk e.1 e.2))

/-- The messages for one topic, in order. -/
def topicMsgs {α : Type} (schema : List RegexpPair) (mk : GoStr → α → Msg) (t : GoStr) (l : List (GoStr × α)) :
    List Msg :=
  l.filterMap (fun e => if (firstMatch schema e.1).map Prod.snd = some t then some (mk e.1 e.2) else none)

/-- Common shape of the two loops of `AddBlock` over updates and deletes. -/
def abItem {α : Type} (schema : List RegexpPair) (mk : GoStr → α → Msg) (rc : α → BatchRecord)
    (s : ABState) (e : GoStr × α) : ABState :=
  match firstMatch schema e.1 with
  | some (pre, topic) =>
    { s with
      counts := s.counts.insert pre ((s.counts.get? pre).getD 0 + 1)
      tm := pushMsg s.tm topic (mk e.1 e.2) }
  | none => { s with upd := s.upd.insert e.1 (rc e.2) }

theorem abUpdate_eq (schema : List RegexpPair) (hash : Hash) :
    abUpdate schema hash = abItem schema (fun k v => ⟨getKey BatchMsgType [hash.bytes, k], v⟩)
      (fun v => { value := v }) := by
  funext s e; rfl

theorem abDelete_eq (schema : List RegexpPair) (hash : Hash) :
    abDelete schema hash = abItem schema (fun k _ => ⟨getKey BatchDeleteMsgType [hash.bytes, k], []⟩)
      (fun _ => { delete := true }) := by
  funext s e; rfl

section items
variable {α : Type} (schema : List RegexpPair) (mk : GoStr → α → Msg) (rc : α → BatchRecord)

theorem foldl_abItem_counts (l : List (GoStr × α)) (s : ABState) (pre : GoStr) :
    ((l.foldl (abItem schema mk rc) s).counts.get? pre) =
      if cnt schema pre l = 0 then s.counts.get? pre
      else some ((s.counts.get? pre).getD 0 + (cnt schema pre l : Int)) := by
  induction l generalizing s with
  | nil => simp [cnt]
  | cons e l ih =>
    rw [List.foldl_cons, ih]
    cases hm : firstMatch schema e.1 with
    | none =>
      have : cnt schema pre (e :: l) = cnt schema pre l := by simp [cnt, hm]
      simp only [abItem, hm, this]
    | some pt =>
      obtain ⟨p, t⟩ := pt
      by_cases hp : p = pre
      · subst hp
        have : cnt schema p (e :: l) = cnt schema p l + 1 := by simp [cnt, hm]
        simp only [abItem, hm, GMap.get?_insert_self, this]
        by_cases h0 : cnt schema p l = 0 <;> simp [h0]; omega
      · have : cnt schema pre (e :: l) = cnt schema pre l := by simp [cnt, hm, hp]
        simp only [abItem, hm, this, GMap.get?_insert_ne _ _ hp]

theorem foldl_abItem_upd (l : List (GoStr × α)) (s : ABState) (hn : (l.map Prod.fst).Nodup) (k : GoStr) :
    ((l.foldl (abItem schema mk rc) s).upd.get? k) =
      if Unrouted schema k then ((GMap.look k l).map rc).or (s.upd.get? k) else s.upd.get? k := by
  induction l generalizing s with
  | nil => simp [GMap.look]
  | cons e l ih =>
    obtain ⟨a, b⟩ := e
    simp only [List.map_cons, List.nodup_cons] at hn
    rw [List.foldl_cons, ih _ hn.2]
    cases hm : firstMatch schema a with
    | none =>
      have hu := firstMatch_none_iff.mp hm
      simp only [abItem, hm, GMap.get?_insert, GMap.look]
      by_cases e : a = k
      · subst e
        have : GMap.look a l = none := GMap.look_eq_none_iff.mpr hn.1
        simp [hu, this]
      · simp [e]
    | some pt =>
      simp only [abItem, hm, GMap.look]
      have hu : ¬ Unrouted schema a := by rw [← firstMatch_none_iff, hm]; simp
      by_cases e : a = k
      · subst e; simp [hu]
      · simp [e]

theorem flat_pushMsg (tm : GMap GoStr (List Msg)) (t : GoStr) (m : Msg) :
    (flat (pushMsg tm t m)).Perm (flat tm ++ [m]) := by
  unfold flat pushMsg
  simp only [GMap.insert, GMap.get?]
  generalize tm.entries = l
  induction l with
  | nil => simp [GMap.put, GMap.look]
  | cons e l ih =>
    obtain ⟨a, b⟩ := e
    by_cases h : a = t
    · simp only [GMap.put, GMap.look, h, if_true, List.flatMap_cons, Option.getD_some]
      simp only [List.append_assoc]
      exact List.Perm.append_left b List.perm_append_comm
    · simp only [GMap.put, GMap.look, h, if_false, List.flatMap_cons, List.append_assoc]
      exact List.Perm.append_left b ih

theorem foldl_abItem_flat (l : List (GoStr × α)) (s : ABState) :
    (flat (l.foldl (abItem schema mk rc) s).tm).Perm (flat s.tm ++ routedMsgs schema mk l) := by
  induction l generalizing s with
  | nil => simp [routedMsgs]
  | cons e l ih =>
    rw [List.foldl_cons]
    refine (ih _).trans ?_
    cases hm : firstMatch schema e.1 with
    | none => simp [abItem, hm, routedMsgs]
    | some pt =>
      simp only [abItem, hm, routedMsgs, List.filterMap_cons, Option.map_some]
      refine (List.Perm.append_right _ (flat_pushMsg _ _ _)).trans ?_
      simp

theorem get?_pushMsg (tm : GMap GoStr (List Msg)) (t t' : GoStr) (m : Msg) :
    (pushMsg tm t m).get? t' = if t = t' then some ((tm.get? t).getD [] ++ [m]) else tm.get? t' := by
  simp [pushMsg, GMap.get?_insert]

theorem foldl_abItem_tm (l : List (GoStr × α)) (s : ABState) (t : GoStr) :
    ((l.foldl (abItem schema mk rc) s).tm.get? t) =
      if topicMsgs schema mk t l = [] then s.tm.get? t
      else some ((s.tm.get? t).getD [] ++ topicMsgs schema mk t l) := by
  induction l generalizing s with
  | nil => simp [topicMsgs]
  | cons e l ih =>
    rw [List.foldl_cons, ih]
    cases hm : firstMatch schema e.1 with
    | none =>
      have : topicMsgs schema mk t (e :: l) = topicMsgs schema mk t l := by simp [topicMsgs, hm]
      simp only [abItem, hm, this]
    | some pt =>
      obtain ⟨p, tp⟩ := pt
      by_cases h : tp = t
      · subst h
        have : topicMsgs schema mk tp (e :: l) = mk e.1 e.2 :: topicMsgs schema mk tp l := by
          simp [topicMsgs, hm]
        simp only [abItem, hm, get?_pushMsg, this, if_true]
        by_cases h0 : topicMsgs schema mk tp l = [] <;> simp [h0]
      · have : topicMsgs schema mk t (e :: l) = topicMsgs schema mk t l := by simp [topicMsgs, hm, h]
        simp only [abItem, hm, get?_pushMsg, this, h, if_false]

end items

theorem abBatches_ok {p : Producer} {hash : Hash} {l : List (GoStr × Hash)} {upd upd' : GMap GoStr BatchRecord}
    {pend pend' : GMap Hash BatchInfo} (hn : (l.map Prod.fst).Nodup)
    (h : abBatches p hash l upd pend = (pend', .ok upd')) :
    (∀ e ∈ l, e.2 ≠ Hash.zero) ∧ (∀ e ∈ l, upd.get? e.1 = none) ∧
    (∀ k, upd'.get? k = ((GMap.look k l).map (fun h => ({ subbatch := h } : BatchRecord))).or (upd.get? k)) := by
  induction l generalizing upd pend with
  | nil => simp [abBatches] at h; obtain ⟨_, rfl⟩ := h; simp [GMap.look]
  | cons e l ih =>
    obtain ⟨k, x⟩ := e
    simp only [List.map_cons, List.nodup_cons] at hn
    rw [abBatches] at h
    split at h
    · simp at h
    · rename_i hz
      split at h
      · simp at h
      · rename_i hc
        obtain ⟨i1, i2, i3⟩ := ih hn.2 h
        have hc' : upd.get? k = none := by
          rw [← GMap.contains_eq_false]; simpa using hc
        refine ⟨?_, ?_, ?_⟩
        · intro e he; rcases List.mem_cons.mp he with rfl | he
          · exact hz
          · exact i1 e he
        · intro e he; rcases List.mem_cons.mp he with rfl | he
          · exact hc'
          · have h1 := i2 e he
            have : k ≠ e.1 := fun e2 => hn.1 (e2 ▸ List.mem_map_of_mem (f := Prod.fst) he)
            rwa [GMap.get?_insert_ne _ _ this] at h1
        · intro k'
          rw [i3, GMap.get?_insert, GMap.look]
          by_cases e : k = k'
          · subst e
            have : GMap.look k l = none := GMap.look_eq_none_iff.mpr hn.1
            simp [this]
          · simp [e]

theorem abBatches_err {p : Producer} {hash : Hash} {l : List (GoStr × Hash)} {upd : GMap GoStr BatchRecord}
    {pend pend' : GMap Hash BatchInfo} {e : Err} (hn : (l.map Prod.fst).Nodup)
    (h : abBatches p hash l upd pend = (pend', .error e)) :
    (e = .invalidBatch ∧ ∃ k, (k, Hash.zero) ∈ l) ∨
    (e = .prefixConflict ∧ ∃ k h, (k, h) ∈ l ∧ (upd.get? k).isSome) := by
  induction l generalizing upd pend with
  | nil => simp [abBatches] at h
  | cons a l ih =>
    obtain ⟨k, x⟩ := a
    simp only [List.map_cons, List.nodup_cons] at hn
    rw [abBatches] at h
    split at h
    · rename_i hz
      simp at h; subst hz; exact .inl ⟨h.2.symm, k, by simp⟩
    · split at h
      · rename_i hc
        simp at h; exact .inr ⟨h.2.symm, k, x, by simp, hc⟩
      · rcases ih hn.2 h with ⟨h1, k', h2⟩ | ⟨h1, k', x', h2, h3⟩
        · exact .inl ⟨h1, k', by simp [h2]⟩
        · refine .inr ⟨h1, k', x', by simp [h2], ?_⟩
          have : k ≠ k' := fun e2 => hn.1 (e2 ▸ List.mem_map_of_mem (f := Prod.fst) h2)
          rwa [GMap.get?_insert_ne _ _ this] at h3

/-- What `AddBlock` does to the table of registered sub-batches, whatever it returns. -/
theorem abBatches_pend {p : Producer} {hash : Hash} {l : List (GoStr × Hash)} {upd : GMap GoStr BatchRecord}
    {pend : GMap Hash BatchInfo} (x : Hash) :
    ((abBatches p hash l upd pend).1.get? x = pend.get? x ∨
      ∃ k, (k, x) ∈ l ∧ (abBatches p hash l upd pend).1.get? x = some ⟨topicOf p k, hash⟩) := by
  induction l generalizing upd pend with
  | nil => simp [abBatches]
  | cons a l ih =>
    obtain ⟨k, y⟩ := a
    rw [abBatches]
    split
    · exact .inl rfl
    · split
      · exact .inl rfl
      · rcases ih (upd := upd.insert k { subbatch := y }) (pend := pend.insert y ⟨topicOf p k, hash⟩) with h | ⟨k', h1, h2⟩
        · rw [GMap.get?_insert] at h
          by_cases e : y = x
          · subst e; right
            exact ⟨k, by simp, by simpa using h⟩
          · left; simpa [e] using h
        · right; exact ⟨k', by simp [h1], h2⟩

theorem abBatches_ok_registered {p : Producer} {hash : Hash} {l : List (GoStr × Hash)} {upd upd' : GMap GoStr BatchRecord}
    {pend pend' : GMap Hash BatchInfo}
    (h : abBatches p hash l upd pend = (pend', .ok upd')) {k : GoStr} {x : Hash} (hx : (k, x) ∈ l) :
    ∃ k', (k', x) ∈ l ∧ pend'.get? x = some ⟨topicOf p k', hash⟩ := by
  induction l generalizing upd pend k with
  | nil => simp at hx
  | cons a l ih =>
    obtain ⟨k0, y⟩ := a
    rw [abBatches] at h
    split at h
    · simp at h
    · split at h
      · simp at h
      · by_cases hm : ∃ k', (k', x) ∈ l
        · obtain ⟨k', hk'⟩ := hm
          obtain ⟨k'', h1, h2⟩ := ih h hk'
          exact ⟨k'', by simp [h1], h2⟩
        · have hy : k = k0 ∧ x = y := by
            rcases List.mem_cons.mp hx with e | e
            · simpa using e
            · exact absurd ⟨k, e⟩ hm
          obtain ⟨rfl, rfl⟩ := hy
          have := abBatches_pend (p := p) (hash := hash) (l := l) (upd := upd.insert k { subbatch := x })
              (pend := pend.insert x ⟨topicOf p k, hash⟩) x
          rw [h] at this
          rcases this with e | ⟨k', e, _⟩
          · exact ⟨k, by simp, by simpa using e⟩
          · exact absurd ⟨k', e⟩ hm

theorem abCounts_ok {l : List (GoStr × Int)} {upd upd' : GMap GoStr BatchRecord} (hn : (l.map Prod.fst).Nodup)
    (h : abCounts l upd = .ok upd') :
    (∀ e ∈ l, upd.get? e.1 = none) ∧
    (∀ k, upd'.get? k = ((GMap.look k l).map (fun c => ({ count := c } : BatchRecord))).or (upd.get? k)) := by
  induction l generalizing upd with
  | nil => simp [abCounts] at h; subst h; simp [GMap.look]
  | cons e l ih =>
    obtain ⟨k, x⟩ := e
    simp only [List.map_cons, List.nodup_cons] at hn
    rw [abCounts] at h
    split at h
    · simp at h
    · rename_i hc
      obtain ⟨i2, i3⟩ := ih hn.2 h
      have hc' : upd.get? k = none := by
        rw [← GMap.contains_eq_false]; simpa using hc
      refine ⟨?_, ?_⟩
      · intro e he; rcases List.mem_cons.mp he with rfl | he
        · exact hc'
        · have h1 := i2 e he
          have : k ≠ e.1 := fun e2 => hn.1 (e2 ▸ List.mem_map_of_mem (f := Prod.fst) he)
          rwa [GMap.get?_insert_ne _ _ this] at h1
      · intro k'
        rw [i3, GMap.get?_insert, GMap.look]
        by_cases e : k = k'
        · subst e
          have : GMap.look k l = none := GMap.look_eq_none_iff.mpr hn.1
          simp [this]
        · simp [e]

theorem abCounts_err {l : List (GoStr × Int)} {upd : GMap GoStr BatchRecord} {e : Err} (hn : (l.map Prod.fst).Nodup)
    (h : abCounts l upd = .error e) :
    e = .prefixConflict ∧ ∃ k c, (k, c) ∈ l ∧ (upd.get? k).isSome := by
  induction l generalizing upd with
  | nil => simp [abCounts] at h
  | cons a l ih =>
    obtain ⟨k, x⟩ := a
    simp only [List.map_cons, List.nodup_cons] at hn
    rw [abCounts] at h
    split at h
    · rename_i hc
      simp at h; exact ⟨h.symm, k, x, by simp, hc⟩
    · obtain ⟨h1, k', x', h2, h3⟩ := ih hn.2 h
      refine ⟨h1, k', x', by simp [h2], ?_⟩
      have : k ≠ k' := fun e2 => hn.1 (e2 ▸ List.mem_map_of_mem (f := Prod.fst) h2)
      rwa [GMap.get?_insert_ne _ _ this] at h3

theorem cnt_perm {α : Type} {schema : List RegexpPair} {pre : GoStr} {l l' : List (GoStr × α)} (h : l.Perm l') :
    cnt schema pre l = cnt schema pre l' := (h.filter _).length_eq

theorem cnt_pos_iff {α : Type} {schema : List RegexpPair} {pre : GoStr} {l : List (GoStr × α)} :
    cnt schema pre l ≠ 0 ↔ ∃ e ∈ l, ∃ topic, Routes schema e.1 pre topic := by
  unfold cnt
  rw [ne_eq, List.length_eq_zero_iff, List.filter_eq_nil_iff]
  simp only [decide_eq_true_eq, Classical.not_forall, Classical.not_not, exists_prop]
  constructor
  · rintro ⟨e, he, h⟩
    obtain ⟨⟨p, t⟩, hm, rfl⟩ := Option.map_eq_some_iff.mp h
    exact ⟨e, he, t, firstMatch_some_iff.mp hm⟩
  · rintro ⟨e, he, t, h⟩
    exact ⟨e, he, by simp [firstMatch_some_iff.mpr h]⟩

/-- How many keys of the block are matched to `pre`. -/
def blockCount (schema : List RegexpPair) (U : GMap GoStr Bytes) (D : GMap GoStr Unit) (pre : GoStr) : Nat :=
  cnt schema pre U.entries + cnt schema pre D.entries

theorem blockCount_pos_iff {schema : List RegexpPair} {U : GMap GoStr Bytes} {D : GMap GoStr Unit} {pre : GoStr} :
    blockCount schema U D pre ≠ 0 ↔ Counted schema U D pre := by
  have : blockCount schema U D pre ≠ 0 ↔ (cnt schema pre U.entries ≠ 0 ∨ cnt schema pre D.entries ≠ 0) := by
    unfold blockCount; omega
  rw [this, cnt_pos_iff, cnt_pos_iff]
  simp only [Counted, GMap.keys, List.mem_map]
  constructor
  · rintro (⟨e, he, t, h⟩ | ⟨e, he, t, h⟩)
    · exact ⟨e.1, t, .inl ⟨e, he, rfl⟩, h⟩
    · exact ⟨e.1, t, .inr ⟨e, he, rfl⟩, h⟩
  · rintro ⟨k, t, ⟨e, he, rfl⟩ | ⟨e, he, rfl⟩, h⟩
    · exact .inl ⟨e, he, t, h⟩
    · exact .inr ⟨e, he, t, h⟩

/-- Inline header record of a key. -/
def inlineRec (schema : List RegexpPair) (U : GMap GoStr Bytes) (D : GMap GoStr Unit) (k : GoStr) : Option BatchRecord :=
  if Unrouted schema k then
    ((D.get? k).map (fun _ => ({ delete := true } : BatchRecord))).or ((U.get? k).map (fun v => { value := v }))
  else none

theorem inlineRec_isSome {schema : List RegexpPair} {U : GMap GoStr Bytes} {D : GMap GoStr Unit} {k : GoStr} :
    (inlineRec schema U D k).isSome ↔ Inline schema U D k := by
  unfold inlineRec Inline
  by_cases hu : Unrouted schema k
  · simp only [hu, if_true, true_and, GMap.mem_keys_iff]
    cases D.get? k <;> cases U.get? k <;> simp
  · simp [hu]

def updMk (hash : Hash) (k : GoStr) (v : Bytes) : Msg := ⟨getKey BatchMsgType [hash.bytes, k], v⟩
def delMk (hash : Hash) (k : GoStr) (_ : Unit) : Msg := ⟨getKey BatchDeleteMsgType [hash.bytes, k], []⟩

/-- State after the loops over updates and deletes. -/
def abMid (o : MapOrder) (p : Producer) (hash : Hash) (U : GMap GoStr Bytes) (D : GMap GoStr Unit) : ABState :=
  (o.ord 1 D.entries).foldl (abDelete p.schema hash)
    ((o.ord 0 U.entries).foldl (abUpdate p.schema hash) ⟨GMap.empty.insert p.defaultTopic [], GMap.empty, GMap.empty⟩)

theorem look_ord {K V : Type} [DecidableEq K] (o : MapOrder) (n : Nat) (m : GMap K V) (k : K) :
    GMap.look k (o.ord n m.entries) = m.get? k := GMap.get?_reorder m o n k

theorem nodup_ord {K V : Type} [DecidableEq K] (o : MapOrder) (n : Nat) (m : GMap K V) :
    ((o.ord n m.entries).map Prod.fst).Nodup := (m.reorder o n).nodup

theorem abMid_counts (o : MapOrder) (p : Producer) (hash : Hash) (U : GMap GoStr Bytes) (D : GMap GoStr Unit) (pre : GoStr) :
    (abMid o p hash U D).counts.get? pre =
      if blockCount p.schema U D pre = 0 then none else some (blockCount p.schema U D pre : Int) := by
  unfold abMid blockCount
  rw [abDelete_eq, abUpdate_eq, foldl_abItem_counts, foldl_abItem_counts,
    cnt_perm (o.perm 1 D.entries), cnt_perm (o.perm 0 U.entries)]
  simp only [GMap.get?_empty, Option.getD_none]
  by_cases h1 : cnt p.schema pre U.entries = 0 <;> by_cases h2 : cnt p.schema pre D.entries = 0 <;>
    simp [h1, h2]

theorem abMid_upd (o : MapOrder) (p : Producer) (hash : Hash) (U : GMap GoStr Bytes) (D : GMap GoStr Unit) (k : GoStr) :
    (abMid o p hash U D).upd.get? k = inlineRec p.schema U D k := by
  unfold abMid inlineRec
  rw [abDelete_eq, abUpdate_eq, foldl_abItem_upd _ _ _ _ _ (nodup_ord o 1 D),
    foldl_abItem_upd _ _ _ _ _ (nodup_ord o 0 U), look_ord, look_ord]
  by_cases hu : Unrouted p.schema k <;> simp [hu]

theorem abMid_flat (o : MapOrder) (p : Producer) (hash : Hash) (U : GMap GoStr Bytes) (D : GMap GoStr Unit) :
    (flat (abMid o p hash U D).tm).Perm
      (routedMsgs p.schema (updMk hash) U.entries ++ routedMsgs p.schema (delMk hash) D.entries) := by
  unfold abMid
  rw [abDelete_eq, abUpdate_eq]
  refine (foldl_abItem_flat _ _ _ _ _).trans ?_
  refine (List.Perm.append_right _ (foldl_abItem_flat _ _ _ _ _)).trans ?_
  have h0 : flat (GMap.empty.insert p.defaultTopic []) = [] := by
    simp [flat, GMap.insert, GMap.empty, GMap.put]
  simp only [h0, List.nil_append]
  exact ((o.perm 0 U.entries).filterMap _).append ((o.perm 1 D.entries).filterMap _)

theorem abMid_tm (o : MapOrder) (p : Producer) (hash : Hash) (U : GMap GoStr Bytes) (D : GMap GoStr Unit) (t : GoStr) :
    ((abMid o p hash U D).tm.get? t).getD [] =
      topicMsgs p.schema (updMk hash) t (o.ord 0 U.entries) ++ topicMsgs p.schema (delMk hash) t (o.ord 1 D.entries) := by
  unfold abMid
  rw [abDelete_eq, abUpdate_eq, foldl_abItem_tm, foldl_abItem_tm]
  have h0 : ((GMap.empty.insert p.defaultTopic ([] : List Msg)).get? t).getD [] = [] := by
    rw [GMap.get?_insert]; split <;> simp
  simp only [show (fun k v => (⟨getKey BatchMsgType [hash.bytes, k], v⟩ : Msg)) = updMk hash from rfl,
    show (fun k (_ : Unit) => (⟨getKey BatchDeleteMsgType [hash.bytes, k], []⟩ : Msg)) = delMk hash from rfl]
  by_cases h1 : topicMsgs p.schema (updMk hash) t (o.ord 0 U.entries) = [] <;>
    by_cases h2 : topicMsgs p.schema (delMk hash) t (o.ord 1 D.entries) = [] <;> simp [h1, h2, h0]

/-- The header record of a key. -/
def headerRec (schema : List RegexpPair) (U : GMap GoStr Bytes) (D : GMap GoStr Unit) (B : GMap GoStr Hash) (k : GoStr) :
    Option BatchRecord :=
  (if blockCount schema U D k = 0 then none else some { count := (blockCount schema U D k : Int) }).or
    (((B.get? k).map (fun h => ({ subbatch := h } : BatchRecord))).or (inlineRec schema U D k))

theorem addBlock_eq (C : Codec) (o : MapOrder) (p : Producer) (number : Int) (hash parentHash : Hash) (weight : Int)
    (U : GMap GoStr Bytes) (D : GMap GoStr Unit) (B : GMap GoStr Hash) :
    addBlock C o p number hash parentHash weight U D B =
      let r := abBatches p hash (o.ord 2 B.entries) (abMid o p hash U D).upd p.pendingBatches
      ({ p with pendingBatches := r.1 },
        match r.2 with
        | .error e => .error e
        | .ok upd =>
          match abCounts (o.ord 3 (abMid o p hash U D).counts.entries) upd with
          | .error e => .error e
          | .ok upd' => .ok (pushMsg (abMid o p hash U D).tm p.defaultTopic
              ⟨getKey BatchType [hash.bytes], C.encBatch
                { number, weight := natBytes weight.natAbs, parentHash, updates := upd'.reorder o 4 }⟩)) := by
  unfold addBlock
  have hmid : (o.ord 1 D.entries).foldl (abDelete p.schema hash) ((o.ord 0 U.entries).foldl (abUpdate p.schema hash)
    ⟨GMap.empty.insert p.defaultTopic [], GMap.empty, GMap.empty⟩) = abMid o p hash U D := rfl
  simp only [hmid]
  generalize abBatches p hash (o.ord 2 B.entries) (abMid o p hash U D).upd p.pendingBatches = r
  obtain ⟨pend, r⟩ := r
  cases r with
  | error e => rfl
  | ok upd =>
    simp only []
    cases abCounts (o.ord 3 (abMid o p hash U D).counts.entries) upd <;> rfl

/-- Everything about a successful `AddBlock`. -/
theorem addBlock_ok {C : Codec} {o : MapOrder} {p p' : Producer} {number : Int} {hash parentHash : Hash} {weight : Int}
    {U : GMap GoStr Bytes} {D : GMap GoStr Unit} {B : GMap GoStr Hash} {tm : GMap GoStr (List Msg)}
    (h : addBlock C o p number hash parentHash weight U D B = (p', .ok tm)) :
    ∃ b : Batch, b.number = number ∧ b.weight = natBytes weight.natAbs ∧ b.parentHash = parentHash ∧
      (∀ k, b.updates.get? k = headerRec p.schema U D B k) ∧
      tm = pushMsg (abMid o p hash U D).tm p.defaultTopic ⟨getKey BatchType [hash.bytes], C.encBatch b⟩ ∧
      ¬ Invalid p.schema U D B ∧
      p'.schema = p.schema ∧ p'.defaultTopic = p.defaultTopic ∧
      (∀ x, x ∈ B.entries.map Prod.snd → ∃ k, B.get? k = some x ∧ p'.pendingBatches.get? x = some ⟨topicOf p k, hash⟩) ∧
      (∀ x, x ∉ B.entries.map Prod.snd → p'.pendingBatches.get? x = p.pendingBatches.get? x) := by
  rw [addBlock_eq] at h
  simp only [Prod.mk.injEq] at h
  obtain ⟨h1, h2⟩ := h
  generalize hr : abBatches p hash (o.ord 2 B.entries) (abMid o p hash U D).upd p.pendingBatches = r at h1 h2
  obtain ⟨pend, r⟩ := r
  cases r with
  | error e => simp at h2
  | ok upd =>
    simp only [] at h1 h2
    cases hc : abCounts (o.ord 3 (abMid o p hash U D).counts.entries) upd with
    | error e => simp [hc] at h2
    | ok upd' =>
      simp only [hc, Except.ok.injEq] at h2
      obtain ⟨a1, a2, a3⟩ := abBatches_ok (nodup_ord o 2 B) hr
      obtain ⟨c1, c2⟩ := abCounts_ok (nodup_ord o 3 _) hc
      have memB : ∀ {k h}, (k, h) ∈ o.ord 2 B.entries ↔ B.get? k = some h := by
        intro k h; rw [(o.perm 2 B.entries).mem_iff, GMap.get?_eq_some_iff]
      refine ⟨_, rfl, rfl, rfl, ?_, h2.symm, ?_, by rw [← h1], by rw [← h1], ?_, ?_⟩
      · intro k
        simp only [GMap.get?_reorder, c2, a3, look_ord, abMid_counts, abMid_upd, headerRec]
        by_cases h0 : blockCount p.schema U D k = 0 <;> simp [h0]
      · rintro (⟨k, hk⟩ | ⟨k, hk, hi⟩ | ⟨pre, hp, hi⟩)
        · exact a1 _ (memB.mpr hk) rfl
        · obtain ⟨v, hv⟩ := (GMap.mem_keys_iff _).mp hk
          have := a2 _ (memB.mpr hv)
          rw [abMid_upd] at this
          have h3 := inlineRec_isSome.mpr hi
          simp [this] at h3
        · have hpos := blockCount_pos_iff.mpr hp
          have hcnt := abMid_counts o p hash U D pre
          simp only [hpos, if_false] at hcnt
          rw [GMap.get?_eq_some_iff] at hcnt
          have := c1 _ ((o.perm 3 _).mem_iff.mpr hcnt)
          rw [a3, look_ord, abMid_upd, Option.or_eq_none_iff] at this
          rcases hi with hi | hi
          · have h3 := inlineRec_isSome.mpr hi
            simp [this.2] at h3
          · obtain ⟨v, hv⟩ := (GMap.mem_keys_iff _).mp hi
            simp [hv] at this
      · intro x hx
        obtain ⟨⟨k, x'⟩, he, rfl⟩ := List.mem_map.mp hx
        obtain ⟨k', hk, hp⟩ := abBatches_ok_registered hr ((o.perm 2 B.entries).mem_iff.mpr he)
        exact ⟨k', memB.mp hk, by rw [← h1]; exact hp⟩
      · intro x hx
        have := abBatches_pend (p := p) (hash := hash) (l := o.ord 2 B.entries) (upd := (abMid o p hash U D).upd)
          (pend := p.pendingBatches) x
        rw [hr] at this
        rcases this with e | ⟨k, e, _⟩
        · rw [← h1]; exact e
        · exact absurd (List.mem_map_of_mem (f := Prod.snd) ((o.perm 2 B.entries).mem_iff.mp e)) hx

/-- A failed `AddBlock` was given invalid arguments. -/
theorem addBlock_err {C : Codec} {o : MapOrder} {p p' : Producer} {number : Int} {hash parentHash : Hash} {weight : Int}
    {U : GMap GoStr Bytes} {D : GMap GoStr Unit} {B : GMap GoStr Hash} {e : Err}
    (h : addBlock C o p number hash parentHash weight U D B = (p', .error e)) :
    Invalid p.schema U D B ∧ (e = .invalidBatch ∨ e = .prefixConflict) := by
  rw [addBlock_eq] at h
  simp only [Prod.mk.injEq] at h
  obtain ⟨h1, h2⟩ := h
  have memB : ∀ {k h}, (k, h) ∈ o.ord 2 B.entries ↔ B.get? k = some h := by
    intro k h; rw [(o.perm 2 B.entries).mem_iff, GMap.get?_eq_some_iff]
  generalize hr : abBatches p hash (o.ord 2 B.entries) (abMid o p hash U D).upd p.pendingBatches = r at h1 h2
  obtain ⟨pend, r⟩ := r
  cases r with
  | error e' =>
    simp only [Except.error.injEq] at h2; subst h2
    rcases abBatches_err (nodup_ord o 2 B) hr with ⟨rfl, k, hk⟩ | ⟨rfl, k, x, hk, hs⟩
    · exact ⟨.inl ⟨k, memB.mp hk⟩, .inl rfl⟩
    · rw [abMid_upd, inlineRec_isSome] at hs
      exact ⟨.inr (.inl ⟨k, (GMap.mem_keys_iff _).mpr ⟨x, memB.mp hk⟩, hs⟩), .inr rfl⟩
  | ok upd =>
    simp only [] at h1 h2
    cases hc : abCounts (o.ord 3 (abMid o p hash U D).counts.entries) upd with
    | ok upd' => simp [hc] at h2
    | error e' =>
      simp only [hc, Except.error.injEq] at h2; subst h2
      obtain ⟨a1, a2, a3⟩ := abBatches_ok (nodup_ord o 2 B) hr
      obtain ⟨rfl, k, c, hk, hs⟩ := abCounts_err (nodup_ord o 3 _) hc
      refine ⟨.inr (.inr ⟨k, ?_, ?_⟩), .inr rfl⟩
      · rw [(o.perm 3 _).mem_iff, ← GMap.get?_eq_some_iff, abMid_counts] at hk
        apply blockCount_pos_iff.mp
        intro h0; simp [h0] at hk
      · rw [a3, look_ord, abMid_upd] at hs
        cases hb : B.get? k with
        | some x => exact .inr ((GMap.mem_keys_iff _).mpr ⟨x, hb⟩)
        | none => left; rw [← inlineRec_isSome]; simpa [hb] using hs

end Verif
