import Verif.Spec.Websocket
import Verif.Proofs.GMap
import Verif.Proofs.ConsumerBase
/-!
# Invariants of the websocket consumer
-/
namespace Verif
open Spec

theorem get?_putAll (m vs : GMap GoStr Bytes) (k : GoStr) :
    (putAll m vs).get? k = (vs.get? k).or (m.get? k) := GMap.get?_foldl_insert _ _ vs.nodup k

theorem contains_markAll (m : GMap GoStr Unit) (ds : List GoStr) (k : GoStr) :
    (markAll m ds).contains k = true ↔ k ∈ ds ∨ m.contains k = true := by
  have := GMap.get?_foldl_insert_unit ds id m k
  simpa [markAll] using this

/-- Union of two maps that agree with one relation. -/
theorem get?_putAll_agree {m vs : GMap GoStr Bytes} {U : GoStr → Bytes → Prop} (hU : ∀ k v w, U k v → U k w → v = w)
    (h1 : ∀ k v, m.get? k = some v → U k v) (h2 : ∀ k v, vs.get? k = some v → U k v) (k : GoStr) (v : Bytes) :
    (putAll m vs).get? k = some v ↔ m.get? k = some v ∨ vs.get? k = some v := by
  rw [get?_putAll]
  cases hv : vs.get? k with
  | none => simp
  | some w =>
    simp only [Option.some_or, Option.some.injEq]
    constructor
    · exact .inr
    · rintro (h | h)
      · exact hU k w v (h2 k w hv) (h1 k v h)
      · exact h

/-- What `gather` does to the fields that are not merged. -/
theorem gather_fields (pb : WsBlock) (subs : GMap Hash TSub) (miss : GMap Hash Unit) (ids : List Hash) :
    (gather pb subs miss ids).1.number = pb.number ∧ (gather pb subs miss ids).1.weight = pb.weight ∧
    (gather pb subs miss ids).1.hash = pb.hash ∧ (gather pb subs miss ids).1.parentHash = pb.parentHash := by
  induction ids generalizing pb subs miss with
  | nil => simp [gather]
  | cons id ids ih =>
    unfold gather
    split
    · obtain ⟨a, b, c, d⟩ := ih (pb.merge ‹TSub›) (subs.erase id) miss
      exact ⟨a, b, c, d⟩
    · exact ih _ _ _

/-- `gather` only touches the ids it is given. -/
theorem gather_subs_other (pb : WsBlock) (subs : GMap Hash TSub) (miss : GMap Hash Unit) (ids : List Hash) {x : Hash}
    (hx : x ∉ ids) : (gather pb subs miss ids).2.1.get? x = subs.get? x := by
  induction ids generalizing pb subs miss with
  | nil => simp [gather]
  | cons id ids ih =>
    simp only [List.mem_cons, not_or] at hx
    unfold gather
    split
    · rw [ih _ _ _ hx.2, GMap.get?_erase_ne _ (Ne.symm hx.1)]
    · exact ih _ _ _ hx.2

/-- The ids given to `gather` are not held any more afterwards. -/
theorem gather_subs_none (pb : WsBlock) (subs : GMap Hash TSub) (miss : GMap Hash Unit) (ids : List Hash)
    {x : Hash} (hx : x ∈ ids ∨ subs.get? x = none) : (gather pb subs miss ids).2.1.get? x = none := by
  induction ids generalizing pb subs miss with
  | nil => simpa [gather] using hx
  | cons id ids ih =>
    unfold gather
    split
    · rename_i s hs
      refine ih _ _ _ ?_
      rcases hx with h | h
      · rcases List.mem_cons.mp h with e | h
        · right; rw [e]; simp
        · exact .inl h
      · right; rw [GMap.get?_erase]; split <;> simp_all
    · rename_i hs
      refine ih _ _ _ ?_
      rcases hx with h | h
      · rcases List.mem_cons.mp h with e | h
        · right; rw [e]; exact hs
        · exact .inl h
      · exact .inr h

/-- What is missing after `gather`. -/
theorem gather_missing (pb : WsBlock) (subs : GMap Hash TSub) (miss : GMap Hash Unit) (ids : List Hash) (hn : ids.Nodup)
    (x : Hash) : (gather pb subs miss ids).2.2.contains x = true ↔
      miss.contains x = true ∨ (x ∈ ids ∧ subs.get? x = none) := by
  induction ids generalizing pb subs miss with
  | nil => simp [gather]
  | cons id ids ih =>
    simp only [List.nodup_cons] at hn
    unfold gather
    split
    · rename_i s hs
      rw [ih _ _ _ hn.2, GMap.get?_erase]
      constructor
      · rintro (h | ⟨h1, h2⟩)
        · exact .inl h
        · refine .inr ⟨List.mem_cons_of_mem _ h1, ?_⟩
          by_cases e : id = x
          · exact absurd (e ▸ h1) hn.1
          · simpa [e] using h2
      · rintro (h | ⟨h1, h2⟩)
        · exact .inl h
        · rcases List.mem_cons.mp h1 with e | h1
          · rw [e] at h2; rw [hs] at h2; simp at h2
          · refine .inr ⟨h1, ?_⟩
            split
            · rfl
            · exact h2
    · rename_i hs
      rw [ih _ _ _ hn.2, GMap.contains_insert]
      simp only [Bool.or_eq_true, decide_eq_true_eq, List.mem_cons]
      constructor
      · rintro ((h | h) | ⟨h1, h2⟩)
        · exact .inr ⟨.inl h.symm, h ▸ hs⟩
        · exact .inl h
        · exact .inr ⟨.inr h1, h2⟩
      · rintro (h | ⟨h1 | h1, h2⟩)
        · exact .inl (.inr h)
        · exact .inl (.inl h1.symm)
        · exact .inr ⟨h1, h2⟩

/-- The values after `gather`, when all parts agree. -/
theorem gather_values {U : GoStr → Bytes → Prop} (hU : ∀ k v w, U k v → U k w → v = w)
    (pb : WsBlock) (subs : GMap Hash TSub) (miss : GMap Hash Unit) (ids : List Hash) (hn : ids.Nodup)
    (h1 : ∀ k v, pb.values.get? k = some v → U k v)
    (h2 : ∀ id ∈ ids, ∀ s, subs.get? id = some s → ∀ k v, s.values.get? k = some v → U k v) (k : GoStr) (v : Bytes) :
    (gather pb subs miss ids).1.values.get? k = some v ↔
      pb.values.get? k = some v ∨ ∃ id ∈ ids, ∃ s, subs.get? id = some s ∧ s.values.get? k = some v := by
  induction ids generalizing pb subs miss with
  | nil => simp [gather]
  | cons id ids ih =>
    simp only [List.nodup_cons] at hn
    unfold gather
    split
    · rename_i s hs
      have hm : ∀ k v, (pb.merge s).values.get? k = some v ↔ pb.values.get? k = some v ∨ s.values.get? k = some v :=
        get?_putAll_agree hU h1 (h2 id (by simp) s hs)
      have hne : ∀ x ∈ ids, (subs.erase id).get? x = subs.get? x := fun x hx =>
        GMap.get?_erase_ne _ (fun e => hn.1 (e ▸ hx))
      rw [ih _ _ _ hn.2, hm]
      · constructor
        · rintro ((h | h) | ⟨x, hx, t, ht, h⟩)
          · exact .inl h
          · exact .inr ⟨id, by simp, s, hs, h⟩
          · exact .inr ⟨x, by simp [hx], t, hne x hx ▸ ht, h⟩
        · rintro (h | ⟨x, hx, t, ht, h⟩)
          · exact .inl (.inl h)
          · rcases List.mem_cons.mp hx with e | hx
            · rw [e, hs] at ht; cases ht; exact .inl (.inr h)
            · exact .inr ⟨x, hx, t, (hne x hx).symm ▸ ht, h⟩
      · intro k v h
        rcases (hm k v).mp h with h | h
        · exact h1 k v h
        · exact h2 id (by simp) s hs k v h
      · intro x hx t ht
        exact h2 x (by simp [hx]) t (hne x hx ▸ ht)
    · rename_i hs
      rw [ih _ _ _ hn.2 h1 (fun x hx => h2 x (by simp [hx]))]
      constructor
      · rintro (h | ⟨x, hx, t⟩)
        · exact .inl h
        · exact .inr ⟨x, by simp [hx], t⟩
      · rintro (h | ⟨x, hx, t, ht, h⟩)
        · exact .inl h
        · rcases List.mem_cons.mp hx with e | hx
          · rw [e, hs] at ht; cases ht
          · exact .inr ⟨x, hx, t, ht, h⟩

/-- The deletes after `gather`. -/
theorem gather_deletes (pb : WsBlock) (subs : GMap Hash TSub) (miss : GMap Hash Unit) (ids : List Hash) (hn : ids.Nodup)
    (k : GoStr) :
    (gather pb subs miss ids).1.deletes.contains k = true ↔
      pb.deletes.contains k = true ∨ ∃ id ∈ ids, ∃ s, subs.get? id = some s ∧ k ∈ s.deletes := by
  induction ids generalizing pb subs miss with
  | nil => simp [gather]
  | cons id ids ih =>
    simp only [List.nodup_cons] at hn
    unfold gather
    split
    · rename_i s hs
      have hm : (pb.merge s).deletes.contains k = true ↔ k ∈ s.deletes ∨ pb.deletes.contains k = true :=
        contains_markAll _ _ _
      have hne : ∀ x ∈ ids, (subs.erase id).get? x = subs.get? x := fun x hx =>
        GMap.get?_erase_ne _ (fun e => hn.1 (e ▸ hx))
      rw [ih _ _ _ hn.2, hm]
      constructor
      · rintro ((h | h) | ⟨x, hx, t, ht, h⟩)
        · exact .inr ⟨id, by simp, s, hs, h⟩
        · exact .inl h
        · exact .inr ⟨x, by simp [hx], t, hne x hx ▸ ht, h⟩
      · rintro (h | ⟨x, hx, t, ht, h⟩)
        · exact .inl (.inr h)
        · rcases List.mem_cons.mp hx with e | hx
          · rw [e, hs] at ht; cases ht; exact .inl (.inl h)
          · exact .inr ⟨x, hx, t, (hne x hx).symm ▸ ht, h⟩
    · rename_i hs
      rw [ih _ _ _ hn.2]
      constructor
      · rintro (h | ⟨x, hx, t⟩)
        · exact .inl h
        · exact .inr ⟨x, by simp [hx], t⟩
      · rintro (h | ⟨x, hx, t, ht, h⟩)
        · exact .inl h
        · rcases List.mem_cons.mp hx with e | hx
          · rw [e, hs] at ht; cases ht
          · exact .inr ⟨x, hx, t, ht, h⟩

theorem size_zero_iff {K V : Type} [DecidableEq K] (m : GMap K V) : m.size = 0 ↔ ∀ k, m.get? k = none := by
  constructor
  · intro h k
    rw [GMap.get?_eq_none_iff]
    have : m.entries = [] := List.length_eq_zero_iff.mp h
    simp [GMap.keys, this]
  · intro h
    refine List.length_eq_zero_iff.mpr ?_
    cases he : m.entries with
    | nil => rfl
    | cons e l =>
      have := (GMap.get?_eq_none_iff m).mp (h e.1)
      simp [GMap.keys, he] at this

/-! ## The invariant for one block -/

/-- The parts of block `b` received so far are exactly what `pb` holds. -/
structure Holds (b : TBatch) (subs : Hash → TSub) (seen : List WMsg) (pb : WsBlock) : Prop where
  number : pb.number = ofUint64 b.number
  weight : pb.weight = b.weight
  hash : pb.hash = b.hash
  parent : pb.parentHash = b.parentHash
  values : ∀ k v, pb.values.get? k = some v ↔
    b.values.get? k = some v ∨ ∃ id ∈ idsOf b, WMsg.sub (subs id) ∈ seen ∧ (subs id).values.get? k = some v
  deletes : ∀ k, pb.deletes.contains k = true ↔
    k ∈ b.deletes ∨ ∃ id ∈ idsOf b, WMsg.sub (subs id) ∈ seen ∧ k ∈ (subs id).deletes

/-- State of the connection with respect to one block. `o` are the calls made on this connection. -/
structure WsInv (b : TBatch) (subs : Hash → TSub) (seen : List WMsg) (c : WConn) (o : List WOut) : Prop where
  keys : ∀ h pb, c.batches.get? h = some pb → pb.hash = h
  before : WMsg.batch b ∉ seen → c.batches.get? b.hash = none ∧ blocksWith b.hash o = [] ∧
    ∀ id ∈ idsOf b, ∀ s, c.subs.get? id = some s ↔ WMsg.sub (subs id) ∈ seen ∧ s = subs id
  waiting : WMsg.batch b ∈ seen → ¬ AllParts b subs seen → blocksWith b.hash o = [] ∧ ∃ pb m,
    c.batches.get? b.hash = some pb ∧ c.pending.get? b.hash = some m ∧ Holds b subs seen pb ∧
    ∀ id, m.contains id = true ↔ id ∈ idsOf b ∧ WMsg.sub (subs id) ∉ seen
  complete : AllParts b subs seen → c.batches.get? b.hash = none ∧ ∃ pb, blocksWith b.hash o = [pb] ∧ Assembled b subs pb

theorem blocksWith_append (h : Hash) (l r : List WOut) : blocksWith h (l ++ r) = blocksWith h l ++ blocksWith h r := by
  simp [blocksWith, List.filterMap_append]

theorem allParts_iff {b : TBatch} {subs : Hash → TSub} {ms : List WMsg} :
    AllParts b subs ms ↔ WMsg.batch b ∈ ms ∧ ∀ id ∈ idsOf b, WMsg.sub (subs id) ∈ ms := by
  constructor
  · exact fun h => ⟨h _ .batch, fun id hid => h _ (.sub hid)⟩
  · rintro ⟨h1, h2⟩ m (_ | hid)
    · exact h1
    · exact h2 _ hid

variable {b : TBatch} {subs : Hash → TSub} {seen : List WMsg} {c : WConn} {o : List WOut}

theorem Holds.assembled {pb : WsBlock} (h : Holds b subs seen pb) (ha : AllParts b subs seen) : Assembled b subs pb := by
  refine ⟨h.number, h.weight, h.hash, h.parent, fun k v => (h.values k v).trans ?_, fun k => (h.deletes k).trans ?_⟩
  · constructor
    · rintro (h | ⟨id, h1, _, h2⟩)
      · exact .inl h
      · exact .inr ⟨id, h1, h2⟩
    · rintro (h | ⟨id, h1, h2⟩)
      · exact .inl h
      · exact .inr ⟨id, h1, ha _ (.sub h1), h2⟩
  · constructor
    · rintro (h | ⟨id, h1, _, h2⟩)
      · exact .inl h
      · exact .inr ⟨id, h1, h2⟩
    · rintro (h | ⟨id, h1, h2⟩)
      · exact .inl h
      · exact .inr ⟨id, h1, ha _ (.sub h1), h2⟩

/-- A message of another block is none of the messages of this one. -/
theorem not_part_of_elsewhere (hp : WellParted b subs) {m : WMsg} (he : Elsewhere b m) : ¬ PartOf b subs m := by
  intro h
  cases h with
  | batch => exact he.1 rfl
  | sub hid => exact he.1 (hp.hash _ hid)

theorem mem_snoc_elsewhere (hp : WellParted b subs) {m : WMsg} (he : Elsewhere b m) {x : WMsg} (hx : PartOf b subs x) :
    x ∈ seen ++ [m] ↔ x ∈ seen := by
  simp only [List.mem_append, List.mem_singleton]
  constructor
  · rintro (h | h)
    · exact h
    · exact absurd (h ▸ hx) (not_part_of_elsewhere hp he)
  · exact .inl

/-- If nothing about the block changes, the invariant stays. -/
theorem WsInv.frame (hp : WellParted b subs) (h : WsInv b subs seen c o) {m : WMsg} (he : Elsewhere b m) {c' : WConn} {o' : List WOut}
    (hk : ∀ h pb, c'.batches.get? h = some pb → pb.hash = h)
    (hb : c'.batches.get? b.hash = c.batches.get? b.hash) (hq : c'.pending.get? b.hash = c.pending.get? b.hash)
    (hs : ∀ id ∈ idsOf b, c'.subs.get? id = c.subs.get? id) (ho : blocksWith b.hash o' = blocksWith b.hash o) :
    WsInv b subs (seen ++ [m]) c' o' := by
  have hb' : WMsg.batch b ∈ seen ++ [m] ↔ WMsg.batch b ∈ seen := mem_snoc_elsewhere hp he .batch
  have hi' : ∀ id ∈ idsOf b, (WMsg.sub (subs id) ∈ seen ++ [m] ↔ WMsg.sub (subs id) ∈ seen) :=
    fun id hid => mem_snoc_elsewhere hp he (.sub hid)
  have ha : AllParts b subs (seen ++ [m]) ↔ AllParts b subs seen := by
    rw [allParts_iff, allParts_iff, hb']
    constructor
    · exact fun h => ⟨h.1, fun id hid => (hi' id hid).mp (h.2 id hid)⟩
    · exact fun h => ⟨h.1, fun id hid => (hi' id hid).mpr (h.2 id hid)⟩
  refine ⟨hk, ?_, ?_, ?_⟩
  · rw [hb', hb, ho]
    intro hn
    refine ⟨(h.before hn).1, (h.before hn).2.1, fun id hid s => ?_⟩
    rw [hs id hid, hi' id hid]
    exact (h.before hn).2.2 id hid s
  · rw [hb', ha, hb, ho, hq]
    intro h1 h2
    obtain ⟨h3, pb, q, h4, h5, h6, h7⟩ := h.waiting h1 h2
    refine ⟨h3, pb, q, h4, h5, ⟨h6.number, h6.weight, h6.hash, h6.parent, fun k v => ?_, fun k => ?_⟩, fun id => ?_⟩
    · rw [h6.values]
      exact or_congr Iff.rfl (exists_congr fun id => and_congr_right fun hid => by rw [hi' id hid])
    · rw [h6.deletes]
      exact or_congr Iff.rfl (exists_congr fun id => and_congr_right fun hid => by rw [hi' id hid])
    · rw [h7]
      exact and_congr_right fun hid => by rw [hi' id hid]
  · rw [ha, hb, ho]
    exact h.complete

theorem WConn.onBatch_eq (c : WConn) (o : MapOrder) (b : TBatch) (ids : List Hash)
    (hids : ids = (o.ord 2 b.batches.entries).map Prod.snd) :
    c.onBatch o b =
      (let g := gather b.toPending c.subs GMap.empty ids
       if g.2.2.size = 0 then { c with subs := g.2.1, pending := c.pending.erase b.hash }.finish g.1
       else { c with subs := g.2.1, pending := c.pending.insert b.hash g.2.2, batches := c.batches.insert b.hash g.1 }) := by
  subst hids; rfl

theorem ids_perm (o : MapOrder) (b : TBatch) : ((o.ord 2 b.batches.entries).map Prod.snd).Perm (idsOf b) :=
  (o.perm 2 _).map _

/-- A message about something else. -/
theorem WsInv.elsewhere (hp : WellParted b subs) (h : WsInv b subs seen c o) {m : WMsg} (he : Elsewhere b m) (mo : MapOrder) :
    ∃ c' l, c.step mo m = .ok c' ∧ c'.out = c.out ++ l ∧ WsInv b subs (seen ++ [m]) c' (o ++ l) := by
  cases m with
  | hollow => exact absurd he id
  | ready => exact ⟨_, [], rfl, by simp, h.frame hp he h.keys rfl rfl (fun _ _ => rfl) (by simp)⟩
  | unknown => exact ⟨_, [], rfl, by simp, h.frame hp he h.keys rfl rfl (fun _ _ => rfl) (by simp)⟩
  | reorg n x =>
    exact ⟨_, _, rfl, rfl, h.frame hp he h.keys rfl rfl (fun _ _ => rfl) (by rw [blocksWith_append]; simp [blocksWith])⟩
  | batch x =>
    have hids : ∀ id ∈ idsOf b, id ∉ (mo.ord 2 x.batches.entries).map Prod.snd := fun id hid hm =>
      he.2 id ((ids_perm mo x).mem_iff.mp hm) hid
    simp only [WConn.step]
    rw [WConn.onBatch_eq c mo x _ rfl]
    generalize (mo.ord 2 x.batches.entries).map Prod.snd = ids at hids
    have hh := (gather_fields x.toPending c.subs GMap.empty ids).2.2.1
    have hs : ∀ id ∈ idsOf b, (gather x.toPending c.subs GMap.empty ids).2.1.get? id = c.subs.get? id :=
      fun id hid => gather_subs_other _ _ _ _ (hids id hid)
    generalize gather x.toPending c.subs GMap.empty ids = g at hh hs
    have hx : g.1.hash = x.hash := hh
    simp only []
    split
    · refine ⟨_, [.block g.1], rfl, rfl, h.frame hp he ?_ rfl ?_ ?_ ?_⟩
      · exact h.keys
      · exact GMap.get?_erase_ne _ he.1
      · exact hs
      · rw [blocksWith_append]; simp [blocksWith, hx, he.1]
    · refine ⟨_, [], rfl, by simp, h.frame hp he ?_ ?_ ?_ ?_ (by simp)⟩
      · intro k pb hk
        simp only [GMap.get?_insert] at hk
        split at hk
        · rename_i e; cases hk; rw [← e]; exact hx
        · exact h.keys k pb hk
      · exact GMap.get?_insert_ne _ _ he.1
      · exact GMap.get?_insert_ne _ _ he.1
      · exact hs
  | sub s =>
    have hsid : ∀ id ∈ idsOf b, s.batchId ≠ id := fun id hid e => he.2 (e ▸ hid)
    simp only [WConn.step, WConn.onSub]
    cases hb : c.batches.get? s.hash with
    | none =>
      refine ⟨_, [], rfl, by simp, h.frame hp he h.keys rfl rfl ?_ (by simp)⟩
      exact fun id hid => GMap.get?_insert_ne _ _ (hsid id hid)
    | some pb =>
      have hx : (pb.merge s).hash = s.hash := h.keys s.hash pb hb
      have hke : ∀ k qb, (c.batches.erase s.hash).get? k = some qb → qb.hash = k := by
        intro k qb hk
        rw [GMap.get?_erase] at hk
        split at hk
        · cases hk
        · exact h.keys _ _ hk
      have hse : ∀ id ∈ idsOf b, (c.subs.erase s.batchId).get? id = c.subs.get? id :=
        fun id hid => GMap.get?_erase_ne _ (hsid id hid)
      have hob : blocksWith b.hash (o ++ [.block (pb.merge s)]) = blocksWith b.hash o := by
        rw [blocksWith_append]; simp [blocksWith, hx, he.1]
      simp only []
      cases hq : c.pending.get? s.hash with
      | none =>
        exact ⟨_, [.block (pb.merge s)], rfl, rfl, h.frame hp he hke (GMap.get?_erase_ne _ he.1) rfl hse hob⟩
      | some q =>
        simp only []
        split
        · exact ⟨_, [.block (pb.merge s)], rfl, rfl, h.frame hp he hke (GMap.get?_erase_ne _ he.1)
            (GMap.get?_erase_ne _ he.1) hse hob⟩
        · refine ⟨_, [], rfl, by simp, h.frame hp he ?_ (GMap.get?_insert_ne _ _ he.1)
            (GMap.get?_insert_ne _ _ he.1) hse (by simp)⟩
          intro k qb hk
          simp only [GMap.get?_insert] at hk
          split at hk
          · rename_i e; cases hk; rw [← e]; exact hx
          · exact h.keys k qb hk

theorem toPending_values (b : TBatch) (k : GoStr) : b.toPending.values.get? k = b.values.get? k := by
  simp [TBatch.toPending, get?_putAll]

theorem toPending_deletes (b : TBatch) (k : GoStr) : b.toPending.deletes.contains k = true ↔ k ∈ b.deletes := by
  unfold TBatch.toPending
  rw [contains_markAll]
  simp [GMap.contains]

/-- The batch message of the block. -/
theorem WsInv.batch (hp : WellParted b subs) (ha : PartsAgree b subs) (h : WsInv b subs seen c o) (hn : WMsg.batch b ∉ seen) (mo : MapOrder) :
    ∃ c' l, c.step mo (.batch b) = .ok c' ∧ c'.out = c.out ++ l ∧ WsInv b subs (seen ++ [.batch b]) c' (o ++ l) := by
  obtain ⟨hb, ho, hs⟩ := h.before hn
  simp only [WConn.step]
  rw [WConn.onBatch_eq c mo b _ rfl]
  have hperm := ids_perm mo b
  generalize (mo.ord 2 b.batches.entries).map Prod.snd = ids at hperm
  have hnd : ids.Nodup := hperm.nodup_iff.mpr hp.distinct
  have hmem : ∀ x, x ∈ ids ↔ x ∈ idsOf b := fun x => hperm.mem_iff
  have hf := gather_fields b.toPending c.subs GMap.empty ids
  have hm := gather_missing b.toPending c.subs GMap.empty ids hnd
  have hv := gather_values (U := PartValue b subs) ha b.toPending c.subs GMap.empty ids hnd
    (fun k v hkv => .inl (by rwa [toPending_values] at hkv))
    (fun id hid s hsid k v hkv => by
      obtain ⟨_, e⟩ := (hs id ((hmem id).mp hid) s).mp hsid
      exact .inr ⟨id, (hmem id).mp hid, e ▸ hkv⟩)
  have hd := gather_deletes b.toPending c.subs GMap.empty ids hnd
  generalize gather b.toPending c.subs GMap.empty ids = g at hf hm hv hd
  have hsub : ∀ id, WMsg.sub (subs id) ∈ seen ++ [.batch b] ↔ WMsg.sub (subs id) ∈ seen := by simp
  have hmiss : ∀ id, g.2.2.contains id = true ↔ id ∈ idsOf b ∧ WMsg.sub (subs id) ∉ seen := by
    intro id
    rw [hm, hmem]
    simp only [GMap.contains, GMap.get?_empty, Option.isSome_none, Bool.false_eq_true, false_or]
    refine and_congr_right fun hid => ?_
    constructor
    · intro h1 h2
      have := (hs id hid (subs id)).mpr ⟨h2, rfl⟩
      rw [h1] at this; cases this
    · intro h1
      cases hc : c.subs.get? id with
      | none => rfl
      | some s => exact absurd ((hs id hid s).mp hc).1 h1
  have hold : Holds b subs (seen ++ [.batch b]) g.1 := by
    refine ⟨hf.1, hf.2.1, hf.2.2.1, hf.2.2.2, fun k v => ?_, fun k => ?_⟩
    · rw [hv, toPending_values]
      refine or_congr Iff.rfl ⟨?_, ?_⟩
      · rintro ⟨id, hid, s, h1, h2⟩
        have hid := (hmem id).mp hid
        obtain ⟨h3, e⟩ := (hs id hid s).mp h1
        exact ⟨id, hid, (hsub id).mpr h3, e ▸ h2⟩
      · rintro ⟨id, hid, h1, h2⟩
        exact ⟨id, (hmem id).mpr hid, _, (hs id hid _).mpr ⟨(hsub id).mp h1, rfl⟩, h2⟩
    · rw [hd, toPending_deletes]
      refine or_congr Iff.rfl ⟨?_, ?_⟩
      · rintro ⟨id, hid, s, h1, h2⟩
        have hid := (hmem id).mp hid
        obtain ⟨h3, e⟩ := (hs id hid s).mp h1
        exact ⟨id, hid, (hsub id).mpr h3, e ▸ h2⟩
      · rintro ⟨id, hid, h1, h2⟩
        exact ⟨id, (hmem id).mpr hid, _, (hs id hid _).mpr ⟨(hsub id).mp h1, rfl⟩, h2⟩
  have hh : g.1.hash = b.hash := hf.2.2.1
  have hall : AllParts b subs (seen ++ [.batch b]) ↔ g.2.2.size = 0 := by
    rw [allParts_iff, size_zero_iff]
    constructor
    · rintro ⟨_, h2⟩ k
      rw [← GMap.contains_eq_false]
      cases hc : g.2.2.contains k with
      | false => rfl
      | true =>
        obtain ⟨h3, h4⟩ := (hmiss k).mp hc
        exact absurd ((hsub k).mp (h2 k h3)) h4
    · intro h1
      refine ⟨by simp, fun id hid => (hsub id).mpr ?_⟩
      refine Classical.byContradiction fun hc => ?_
      have := (hmiss id).mpr ⟨hid, hc⟩
      rw [GMap.contains_iff] at this
      obtain ⟨_, h2⟩ := this
      rw [h1] at h2; cases h2
  simp only []
  split
  · rename_i hz
    refine ⟨_, [.block g.1], rfl, rfl, h.keys, ?_, ?_, ?_⟩
    · intro h1; simp at h1
    · intro _ h2; exact absurd (hall.mpr hz) h2
    · intro h1
      refine ⟨hb, g.1, ?_, hold.assembled h1⟩
      rw [blocksWith_append, ho]; simp [blocksWith, hh]
  · rename_i hz
    refine ⟨_, [], rfl, by simp, ?_, ?_, ?_, ?_⟩
    · intro k pb hk
      simp only [GMap.get?_insert] at hk
      split at hk
      · rename_i e; cases hk; rw [← e]; exact hh
      · exact h.keys k pb hk
    · intro h1; simp at h1
    · intro _ _
      refine ⟨by simpa using ho, g.1, g.2.2, GMap.get?_insert_self .., GMap.get?_insert_self .., hold, fun id => ?_⟩
      rw [hmiss, hsub]
    · intro h1; exact absurd (hall.mp h1) hz

/-- A sub-batch message of the block. -/
theorem WsInv.sub (hp : WellParted b subs) (ha : PartsAgree b subs) (h : WsInv b subs seen c o) {id : Hash} (hid : id ∈ idsOf b) (mo : MapOrder) :
    ∃ c' l, c.step mo (.sub (subs id)) = .ok c' ∧ c'.out = c.out ++ l ∧ WsInv b subs (seen ++ [.sub (subs id)]) c' (o ++ l) := by
  have hbm : WMsg.batch b ∈ seen ++ [.sub (subs id)] ↔ WMsg.batch b ∈ seen := by simp
  have hinj : ∀ x ∈ idsOf b, subs x = subs id → x = id := fun x hx e => by
    rw [← hp.id x hx, ← hp.id id hid, e]
  have hsm : ∀ x ∈ idsOf b, (WMsg.sub (subs x) ∈ seen ++ [.sub (subs id)] ↔ WMsg.sub (subs x) ∈ seen ∨ x = id) := by
    intro x hx
    simp only [List.mem_append, List.mem_singleton, WMsg.sub.injEq]
    exact or_congr Iff.rfl ⟨hinj x hx, fun e => e ▸ rfl⟩
  simp only [WConn.step, WConn.onSub, hp.hash id hid, hp.id id hid]
  by_cases hb : WMsg.batch b ∈ seen
  · by_cases hall : AllParts b subs seen
    · obtain ⟨h1, pb, h2, h3⟩ := h.complete hall
      rw [h1]
      have hall' : AllParts b subs (seen ++ [.sub (subs id)]) := fun m hm => List.mem_append_left _ (hall m hm)
      refine ⟨_, [], rfl, by simp, h.keys, ?_, ?_, ?_⟩
      · intro hc; exact absurd (hbm.mpr hb) hc
      · intro _ hc; exact absurd hall' hc
      · intro _; exact ⟨h1, pb, by simpa using h2, h3⟩
    · obtain ⟨h1, pb, q, h2, h3, h4, h5⟩ := h.waiting hb hall
      rw [h2]; simp only []; rw [h3]; simp only []
      have hU1 : ∀ k v, pb.values.get? k = some v → PartValue b subs k v := fun k v hkv => by
        rcases (h4.values k v).mp hkv with h | ⟨x, hx, _, h⟩
        · exact .inl h
        · exact .inr ⟨x, hx, h⟩
      have hold : Holds b subs (seen ++ [.sub (subs id)]) (pb.merge (subs id)) := by
        refine ⟨h4.number, h4.weight, h4.hash, h4.parent, fun k v => ?_, fun k => ?_⟩
        · have hm : (pb.merge (subs id)).values.get? k = some v ↔ pb.values.get? k = some v ∨ (subs id).values.get? k = some v :=
            get?_putAll_agree (U := PartValue b subs) ha hU1 (fun k v hkv => .inr ⟨id, hid, hkv⟩) k v
          rw [hm, h4.values]
          constructor
          · rintro ((h | ⟨x, hx, h, h'⟩) | h)
            · exact .inl h
            · exact .inr ⟨x, hx, (hsm x hx).mpr (.inl h), h'⟩
            · exact .inr ⟨id, hid, (hsm id hid).mpr (.inr rfl), h⟩
          · rintro (h | ⟨x, hx, h, h'⟩)
            · exact .inl (.inl h)
            · rcases (hsm x hx).mp h with h | e
              · exact .inl (.inr ⟨x, hx, h, h'⟩)
              · exact .inr (e ▸ h')
        · have hm : (pb.merge (subs id)).deletes.contains k = true ↔ k ∈ (subs id).deletes ∨ pb.deletes.contains k = true :=
            contains_markAll _ _ _
          rw [hm, h4.deletes]
          constructor
          · rintro (h | (h | ⟨x, hx, h, h'⟩))
            · exact .inr ⟨id, hid, (hsm id hid).mpr (.inr rfl), h⟩
            · exact .inl h
            · exact .inr ⟨x, hx, (hsm x hx).mpr (.inl h), h'⟩
          · rintro (h | ⟨x, hx, h, h'⟩)
            · exact .inr (.inl h)
            · rcases (hsm x hx).mp h with h | e
              · exact .inr (.inr ⟨x, hx, h, h'⟩)
              · exact .inl (e ▸ h')
      have hh : (pb.merge (subs id)).hash = b.hash := hold.hash
      have hmiss : ∀ x, (q.erase id).contains x = true ↔ x ∈ idsOf b ∧ WMsg.sub (subs x) ∉ seen ++ [.sub (subs id)] := by
        intro x
        have hq := h5 x
        unfold GMap.contains at hq ⊢
        rw [GMap.get?_erase]
        by_cases e : id = x
        · subst e
          simp [hid]
        · simp only [e, if_false]
          rw [hq]
          refine and_congr_right fun hx => ?_
          rw [hsm x hx]
          exact ⟨fun h1 h2 => h2.elim h1 (fun e' => e e'.symm), fun h1 h2 => h1 (.inl h2)⟩
      have hall : AllParts b subs (seen ++ [.sub (subs id)]) ↔ (q.erase id).size = 0 := by
        rw [allParts_iff, size_zero_iff]
        constructor
        · rintro ⟨_, h6⟩ k
          rw [← GMap.contains_eq_false]
          cases hc : (q.erase id).contains k with
          | false => rfl
          | true => exact absurd (h6 k ((hmiss k).mp hc).1) ((hmiss k).mp hc).2
        · intro h6
          refine ⟨hbm.mpr hb, fun x hx => ?_⟩
          refine Classical.byContradiction fun hc => ?_
          have := (hmiss x).mpr ⟨hx, hc⟩
          rw [GMap.contains_iff] at this
          obtain ⟨_, h7⟩ := this
          rw [h6] at h7; cases h7
      split
      · rename_i hz
        refine ⟨_, [.block (pb.merge (subs id))], rfl, rfl, ?_, ?_, ?_, ?_⟩
        · intro k qb hk
          replace hk : (c.batches.erase b.hash).get? k = some qb := hk
          rw [GMap.get?_erase] at hk
          split at hk
          · cases hk
          · exact h.keys k qb hk
        · intro hc; exact absurd (hbm.mpr hb) hc
        · intro _ hc; exact absurd (hall.mpr hz) hc
        · intro h6
          refine ⟨GMap.get?_erase_self .., _, ?_, hold.assembled h6⟩
          rw [blocksWith_append, h1]; simp [blocksWith, hh]
      · rename_i hz
        refine ⟨_, [], rfl, by simp, ?_, ?_, ?_, ?_⟩
        · intro k qb hk
          simp only [GMap.get?_insert] at hk
          split at hk
          · rename_i e; cases hk; rw [← e]; exact hh
          · exact h.keys k qb hk
        · intro hc; exact absurd (hbm.mpr hb) hc
        · intro _ _
          exact ⟨by simpa using h1, _, _, GMap.get?_insert_self .., GMap.get?_insert_self .., hold, hmiss⟩
        · intro h6; exact absurd (hall.mp h6) hz
  · obtain ⟨h1, h2, h3⟩ := h.before hb
    rw [h1]
    refine ⟨_, [], rfl, by simp, h.keys, ?_, ?_, ?_⟩
    · intro _
      refine ⟨h1, by simpa using h2, fun x hx s => ?_⟩
      rw [hsm x hx, GMap.get?_insert]
      by_cases e : id = x
      · subst e
        simp [eq_comm]
      · have e' : x ≠ id := fun h => e h.symm
        simp only [e, if_false, e', or_false]
        exact h3 x hx s
    · intro hc; exact absurd (hbm.mp hc) hb
    · intro hc; exact absurd (hbm.mp (allParts_iff.mp hc).1) hb

theorem WsInv.init (b : TBatch) (subs : Hash → TSub) (c : WConn) : WsInv b subs [] c.reconnect [] := by
  refine ⟨?_, ?_, ?_, ?_⟩
  · intro h pb hk; simp [WConn.reconnect] at hk
  · intro _; exact ⟨rfl, rfl, fun id _ s => by simp [WConn.reconnect]⟩
  · intro h; cases h
  · intro h; cases (allParts_iff.mp h).1

/-- Runs keep the invariant. -/
theorem WsInv.run (hp : WellParted b subs) (ha : PartsAgree b subs) {ms : List WMsg} (h : WsInv b subs seen c o)
    (hms : OneBatch b subs (seen ++ ms)) (mo : Nat → MapOrder) :
    ∃ c' l, c.run mo ms = .ok c' ∧ c'.out = c.out ++ l ∧ WsInv b subs (seen ++ ms) c' (o ++ l) := by
  induction ms generalizing seen c o mo with
  | nil => exact ⟨c, [], rfl, by simp, by simpa using h⟩
  | cons m ms ih =>
    have hstep : ∃ c' l, c.step (mo 0) m = .ok c' ∧ c'.out = c.out ++ l ∧ WsInv b subs (seen ++ [m]) c' (o ++ l) := by
      rcases hms.only m (by simp) with hpart | he
      · cases hpart with
        | batch => exact h.batch hp ha (hms.once seen ms rfl) (mo 0)
        | sub hid => exact h.sub hp ha hid (mo 0)
      · exact h.elsewhere hp he (mo 0)
    obtain ⟨c1, l1, e1, e2, h1⟩ := hstep
    have e : seen ++ [m] ++ ms = seen ++ m :: ms := by simp
    obtain ⟨c2, l2, e3, e4, h2⟩ := ih (seen := seen ++ [m]) (c := c1) (o := o ++ l1) h1 (e.symm ▸ hms) (fun n => mo (n + 1))
    refine ⟨c2, l1 ++ l2, ?_, by rw [e4, e2]; simp, ?_⟩
    · simp only [WConn.run, e1]; exact e3
    · rw [e] at h2; simpa using h2

theorem Spec.Woven.mem {sel ms : List WMsg} (h : Woven b sel ms) {m : WMsg} : m ∈ ms → m ∈ sel ∨ Elsewhere b m := by
  induction h with
  | nil => intro h; cases h
  | take _ ih =>
    intro h
    rcases List.mem_cons.mp h with e | h
    · exact .inl (by simp [e])
    · rcases ih h with h | h
      · exact .inl (by simp [h])
      · exact .inr h
  | skip he _ ih =>
    intro h
    rcases List.mem_cons.mp h with e | h
    · exact .inr (e ▸ he)
    · exact ih h

theorem Spec.Woven.mem' {sel ms : List WMsg} (h : Woven b sel ms) {m : WMsg} : m ∈ sel → m ∈ ms := by
  induction h with
  | nil => exact id
  | take _ ih =>
    intro h
    rcases List.mem_cons.mp h with e | h
    · simp [e]
    · simp [ih h]
  | skip _ _ ih => intro h; simp [ih h]

theorem not_elsewhere_self : ¬ Elsewhere b (.batch b) := fun h => h.1 rfl

theorem Spec.Woven.once {sel ms : List WMsg} (h : Woven b sel ms) (hs : ∀ l r, sel = l ++ .batch b :: r → WMsg.batch b ∉ l) :
    ∀ l r, ms = l ++ .batch b :: r → WMsg.batch b ∉ l := by
  induction h with
  | nil => intro l r e; simp at e
  | @take m sel ms hw ih =>
    intro l r e hm
    cases l with
    | nil => cases hm
    | cons x l =>
      simp only [List.cons_append, List.cons.injEq] at e
      obtain ⟨e1, e2⟩ := e
      have hsel : WMsg.batch b ∈ sel := by
        rcases hw.mem (m := .batch b) (by rw [e2]; simp) with h | h
        · exact h
        · exact absurd h not_elsewhere_self
      by_cases hx : m = .batch b
      · obtain ⟨l', r', e'⟩ := List.append_of_mem hsel
        exact hs (m :: l') r' (by rw [e']; simp) (by simp [hx])
      · refine ih (fun l' r' e' hm' => hs (m :: l') r' (by rw [e']; simp) (by simp [hm'])) l r e2 ?_
        rcases List.mem_cons.mp hm with e' | hm
        · exact absurd (e1.trans e'.symm) hx
        · exact hm
  | @skip m sel ms he hw ih =>
    intro l r e hm
    cases l with
    | nil => cases hm
    | cons x l =>
      simp only [List.cons_append, List.cons.injEq] at e
      obtain ⟨e1, e2⟩ := e
      rcases List.mem_cons.mp hm with e' | hm
      · rw [e1, ← e'] at he; exact not_elsewhere_self he
      · exact ih hs l r e2 hm

theorem Spec.EachOnce.oneBatch {ms : List WMsg} (h : EachOnce b subs ms) : OneBatch b subs ms ∧ AllParts b subs ms := by
  obtain ⟨sel, hperm, hw⟩ := h
  have hmem : ∀ m, m ∈ sel → PartOf b subs m := by
    intro m hm
    rcases List.mem_cons.mp (hperm.mem_iff.mp hm) with e | hm
    · rw [e]; exact .batch
    · obtain ⟨id, hid, e⟩ := List.mem_map.mp hm
      rw [← e]; exact .sub hid
  refine ⟨⟨fun m hm => (hw.mem hm).imp (hmem m) id, hw.once fun l r e hl => ?_⟩, fun m hm => hw.mem' (hperm.mem_iff.mpr ?_)⟩
  · rw [e] at hperm
    have h2 := List.Perm.cons_inv (List.perm_middle.symm.trans hperm)
    have h3 := h2.mem_iff.mp (List.mem_append_left r hl)
    simp at h3
  · cases hm with
    | batch => simp
    | sub hid => simp only [List.mem_cons, List.mem_map]; exact .inr ⟨_, hid, rfl⟩

end Verif
