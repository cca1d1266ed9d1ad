import Verif.Props.Block
/-!
# C140: producers that follow SPEC.md are understood

`SPEC.md` describes the messages of a payload for producers that are not this library. Here a payload and its messages are written down
from that text alone (`Spec.Payload`); whatever producer sends them, with whatever encoding of maps and lists, in whatever order and with
whatever duplicates, the consumer assembles exactly the payload, under the conditions of `Spec.Payload.Plain`. Theorems below show that
these conditions, which `SPEC.md` does not mention, are needed. The library's own producer sends such messages (`C140_producer`).
-/
namespace Verif

/-- What the `updates` map of a `Batch` message has under a key: "one of" value, count, delete and subbatch (SPEC.md, Batch, Producers). -/
inductive Spec.Entry where
  | value (v : Bytes)
  | count
  | delete
  | subbatch (id : Hash)
deriving DecidableEq

/-- A payload as SPEC.md describes it: hash, number, parent, weight, the `updates` map of the `Batch` message, the keys and values of the
`BatchMsg` messages, the keys of the `BatchDeleteMsg` messages and the items of the sub-batches. -/
structure Spec.Payload where
  hash : Hash
  number : Int
  parent : Hash
  weight : Nat
  entries : GMap GoStr Spec.Entry
  upd : GMap GoStr Bytes
  del : GMap GoStr Unit
  items : Hash → List SubBatchRecord

open Spec Path

namespace Spec

/-- The layout of the keys (SPEC.md: the prefix byte, the hash, and what follows it). -/
def wireKey (C : Codec) : MsgId → Bytes
  | .batch h => 0 :: h.bytes
  | .subHeader h id => 1 :: (h.bytes ++ id.bytes)
  | .subMsg h id i => 2 :: (h.bytes ++ id.bytes ++ C.encInt i)
  | .update h k => 3 :: (h.bytes ++ k)
  | .delete h k => 4 :: (h.bytes ++ k)
  | .reorg h => 5 :: h.bytes
  | .reorgDone h => 6 :: h.bytes

namespace Payload

/-- A key of a `BatchMsg` or `BatchDeleteMsg`. -/
def Key (p : Payload) (k : GoStr) : Prop := k ∈ p.upd.keys ∨ k ∈ p.del.keys

/-- "The number of `BatchMsg`s prefixed by this Key", which includes the `BatchDeleteMsg`s. -/
def counted (p : Payload) (x : GoStr) : Nat :=
  (p.upd.keys.filter (fun k => decide (x <+: k))).length + (p.del.keys.filter (fun k => decide (x <+: k))).length

/-- The record of an entry: the other fields are empty. -/
def record (p : Payload) (x : GoStr) : Entry → BatchRecord
  | .value v => { value := v }
  | .count => { count := (p.counted x : Int) }
  | .delete => { delete := true }
  | .subbatch id => { subbatch := id }

/-- The `Batch` record of the payload. -/
structure Header (p : Payload) (b : Batch) : Prop where
  number : b.number = p.number
  weight : bytesNat b.weight = p.weight
  parent : b.parentHash = p.parent
  updates : ∀ x, b.updates.get? x = (p.entries.get? x).map (p.record x)

/-- The payload has a message of this identity: one `Batch`, one `SubBatchHeader` for each sub-batch, one `SubBatchMsg` for each index
from 0 up to the number of items, one `BatchMsg` or `BatchDeleteMsg` for each key. -/
def Part (p : Payload) : MsgId → Prop
  | .batch h => h = p.hash
  | .subHeader h id => h = p.hash ∧ ∃ x, p.entries.get? x = some (.subbatch id)
  | .subMsg h id i => h = p.hash ∧ (∃ x, p.entries.get? x = some (.subbatch id)) ∧ 0 ≤ i ∧ i < (p.items id).length
  | .update h k => h = p.hash ∧ k ∈ p.upd.keys
  | .delete h k => h = p.hash ∧ k ∈ p.del.keys
  | _ => False

/-- The value of a message: maps and lists are encoded in any order; nothing is asked of the value of a `BatchDeleteMsg` (SPEC.md says it
is empty, its worked example has a value). -/
def Says (C : Codec) (p : Payload) : MsgId → Bytes → Prop
  | .batch _, v => ∃ b, C.decBatch v = some b ∧ p.Header b
  | .subHeader _ id, v => C.decInt v = some ((p.items id).length : Int)
  | .subMsg _ id i, v => ∃ r r', (p.items id)[i.toNat]? = some r ∧ C.decSub v = some r' ∧
      (∀ k, r'.updates.get? k = r.updates.get? k) ∧ ∀ k, k ∈ r'.delete ↔ k ∈ r.delete
  | .update _ k, v => p.upd.get? k = some v
  | _, _ => True

/-- The key and the value of a message of the payload. -/
def IsMessage (C : Codec) (p : Payload) (key value : Bytes) : Prop := ∃ i, p.Part i ∧ key = wireKey C i ∧ p.Says C i value

/-- What is received about the payload are its messages (and messages of types that carry no content). -/
def Heard (C : Codec) (p : Payload) (received : List RMsg) : Prop :=
  ∀ m ∈ received, blockOf m.key = p.hash → p.IsMessage C m.key m.value ∨ NoContent m

/-- Of every message of the payload a copy arrives. -/
def Arrived (C : Codec) (p : Payload) (received : List RMsg) : Prop := ∀ i, p.Part i → ∃ m ∈ received, m.key = wireKey C i

/-- SPEC.md: every key has a prefix that is counted ("`$Count` unique messages with a `$Key` beginning with each prefix") and only one
("the batch prefix beginning `$Key`"), and the payload gives every key one value. -/
structure Consistent (p : Payload) : Prop where
  counted : ∀ k, p.Key k → ∃ x, p.entries.get? x = some .count ∧ x <+: k
  single : ∀ k x y, p.Key k → p.entries.get? x = some .count → p.entries.get? y = some .count → x <+: k → y <+: k → x = y
  value : ∀ k v, p.entries.get? k = some (.value v) → k ∉ p.upd.keys
  delete : ∀ k, p.entries.get? k = some .delete → k ∉ p.del.keys
  item : ∀ x id r k v, p.entries.get? x = some (.subbatch id) → r ∈ p.items id → r.updates.get? k = some v →
    k ∉ p.upd.keys ∧ ∀ w, p.entries.get? k ≠ some (.value w)
  agree : ∀ x id r k v x' id' r' v', p.entries.get? x = some (.subbatch id) → r ∈ p.items id → r.updates.get? k = some v →
    p.entries.get? x' = some (.subbatch id') → r' ∈ p.items id' → r'.updates.get? k = some v' → v = v'
  itemDel : ∀ x id r k, p.entries.get? x = some (.subbatch id) → r ∈ p.items id → k ∈ r.delete → k ∉ p.del.keys

/-- What the consumer needs in addition: values are not empty, sub-batches have identifiers other than zero, counted prefixes are the key
itself or a directory of it, made of ordinary names, and counters fit 32 bits. -/
structure Plain (p : Payload) : Prop where
  upd : ∀ k v, p.upd.get? k = some v → v ≠ []
  value : ∀ k v, p.entries.get? k = some (.value v) → v ≠ []
  id : ∀ x id, p.entries.get? x = some (.subbatch id) → id ≠ Hash.zero
  dirs : ∀ k x, p.Key k → p.entries.get? x = some .count → x <+: k → TidyKey k ∧ DirPrefix x k
  size : ∀ x id, p.entries.get? x = some (.subbatch id) → (p.items id).length < 2147483648

/-- The emitted block is the payload, seen through the filter. -/
structure Assembled (tracked : GoStr → Bool) (p : Payload) (pb : PB) : Prop where
  hash : pb.hash = p.hash
  number : pb.number = p.number
  parent : pb.parentHash = p.parent
  weight : pb.weight = p.weight
  values : ∀ k v, pb.values.get? k = some v ↔
    (p.entries.get? k = some (.value v) ∧ tracked k = true) ∨
    (p.upd.get? k = some v ∧ ∃ x, p.entries.get? x = some .count ∧ x <+: k ∧ tracked x = true) ∨
    (∃ x id r, p.entries.get? x = some (.subbatch id) ∧ tracked x = true ∧ r ∈ p.items id ∧ r.updates.get? k = some v)
  deletes : ∀ k, pb.deletes.contains k = true ↔
    (p.entries.get? k = some .delete ∧ tracked k = true) ∨
    (k ∈ p.del.keys ∧ ∃ x, p.entries.get? x = some .count ∧ x <+: k ∧ tracked x = true) ∨
    (∃ x id r, p.entries.get? x = some (.subbatch id) ∧ tracked x = true ∧ r ∈ p.items id ∧ k ∈ r.delete)

end Payload
end Spec

/-! ## The payload as a block of the assembly proof -/

theorem wireKey_eq (C : Codec) (i : MsgId) : wireKey C i = keyOf C i := by
  cases i <;> simp [wireKey, keyOf, getKey, BatchType, SubBatchHeaderType, SubBatchMsgType, BatchMsgType, BatchDeleteMsgType, ReorgType,
    ReorgCompleteType]

/-- A map with other values. -/
def gmapVals {K V W : Type} [DecidableEq K] (f : K → V → W) (m : GMap K V) : GMap K W :=
  ⟨m.entries.map (fun e => (e.1, f e.1 e.2)), by simpa [Function.comp_def] using m.nodup⟩

theorem gmapVals_get {K V W : Type} [DecidableEq K] (f : K → V → W) (m : GMap K V) (k : K) :
    (gmapVals f m).get? k = (m.get? k).map (f k) := by
  cases h : m.get? k with
  | none =>
    rw [Option.map_none, GMap.get?_eq_none_iff]
    rw [GMap.get?_eq_none_iff] at h
    simpa [GMap.keys, gmapVals, Function.comp_def] using h
  | some v =>
    rw [Option.map_some, GMap.get?_eq_some_iff]
    rw [GMap.get?_eq_some_iff] at h
    exact List.mem_map.mpr ⟨_, h, rfl⟩

namespace Spec.Payload

/-- The prefix a key is counted under. -/
noncomputable def pre (p : Payload) (k : GoStr) : GoStr :=
  open Classical in if h : ∃ x, p.entries.get? x = some .count ∧ x <+: k then Classical.choose h else []

theorem pre_spec {p : Payload} {k : GoStr} (h : ∃ x, p.entries.get? x = some .count ∧ x <+: k) :
    p.entries.get? (p.pre k) = some .count ∧ p.pre k <+: k := by
  unfold pre; rw [dif_pos h]; exact Classical.choose_spec h

noncomputable def blk (p : Payload) : Blk where
  hash := p.hash
  hdr := ⟨p.number, natBytes p.weight, p.parent, gmapVals p.record p.entries⟩
  upd := p.upd
  del := p.del
  pre := p.pre
  recs := p.items

theorem blk_entry {p : Payload} {x : GoStr} {r : BatchRecord} (h : p.blk.hdr.updates.get? x = some r) :
    ∃ e, p.entries.get? x = some e ∧ r = p.record x e := by
  simp only [blk, gmapVals_get, Option.map_eq_some_iff] at h
  obtain ⟨e, h1, h2⟩ := h
  exact ⟨e, h1, h2.symm⟩

theorem blk_get {p : Payload} {x : GoStr} {e : Entry} (h : p.entries.get? x = some e) :
    p.blk.hdr.updates.get? x = some (p.record x e) := by
  simp [blk, gmapVals_get, h]

theorem blk_sub {p : Payload} (hp : p.Plain) {id : Hash} : p.blk.Sub id ↔ ∃ x, p.entries.get? x = some (.subbatch id) := by
  constructor
  · rintro ⟨x, r, h1, h2, h3⟩
    obtain ⟨e, he, rfl⟩ := blk_entry h1
    cases e with
    | subbatch i => exact ⟨x, by rw [he]; simp [record] at h2; rw [h2]⟩
    | _ => simp [record] at h2; exact absurd h2.symm h3
  · rintro ⟨x, hx⟩
    exact ⟨x, _, blk_get hx, rfl, hp.id x id hx⟩

theorem blk_live {p : Payload} (hp : p.Plain) {tracked : GoStr → Bool} {id : Hash} :
    p.blk.Live tracked id ↔ ∃ x, p.entries.get? x = some (.subbatch id) ∧ tracked x = true := by
  constructor
  · rintro ⟨x, r, h1, ht, h2, h3⟩
    obtain ⟨e, he, rfl⟩ := blk_entry h1
    cases e with
    | subbatch i => exact ⟨x, by rw [he]; simp [record] at h2; rw [h2], ht⟩
    | _ => simp [record] at h2; exact absurd h2.symm h3
  · rintro ⟨x, hx, ht⟩
    exact ⟨x, _, blk_get hx, ht, rfl, hp.id x id hx⟩

theorem pre_iff {p : Payload} (hc : p.Consistent) {k x : GoStr} (hk : p.Key k) :
    p.pre k = x ↔ p.entries.get? x = some .count ∧ x <+: k := by
  obtain ⟨h1, h2⟩ := pre_spec (hc.counted k hk)
  constructor
  · rintro rfl; exact ⟨h1, h2⟩
  · rintro ⟨h3, h4⟩; exact hc.single k _ _ hk h1 h3 h2 h4

theorem blk_total {p : Payload} (hc : p.Consistent) {x : GoStr} (hx : p.entries.get? x = some .count) :
    p.blk.total x = p.counted x := by
  unfold Blk.total counted
  have hf : ∀ l : List GoStr, (∀ k ∈ l, p.Key k) → l.filter (fun k => decide (p.blk.pre k = x)) = l.filter (fun k => decide (x <+: k)) := by
    intro l hl
    refine List.filter_congr fun k hk => ?_
    have := pre_iff hc (x := x) (hl k hk)
    simp only [hx, true_and] at this
    exact decide_eq_decide.mpr this
  rw [hf p.blk.upd.keys (fun k h => .inl h), hf p.blk.del.keys (fun k h => .inr h)]
  rfl

theorem blk_total_zero {p : Payload} (hc : p.Consistent) {x : GoStr} (hx : p.entries.get? x ≠ some .count) : p.blk.total x = 0 := by
  unfold Blk.total
  have hf : ∀ l : List GoStr, (∀ k ∈ l, p.Key k) → l.filter (fun k => decide (p.blk.pre k = x)) = [] := by
    intro l hl
    refine List.filter_eq_nil_iff.mpr fun k hk h => hx ?_
    exact ((pre_iff hc (hl k hk)).mp (of_decide_eq_true h)).1
  rw [hf p.blk.upd.keys (fun k h => .inl h), hf p.blk.del.keys (fun k h => .inr h)]
  rfl

/-- A prefix that is counted begins a key. -/
theorem counted_key {p : Payload} {x : GoStr} (h : p.counted x ≠ 0) : ∃ k, p.Key k ∧ x <+: k := by
  refine Classical.byContradiction fun hn => h ?_
  unfold counted
  have hf : ∀ l : List GoStr, (∀ k ∈ l, p.Key k) → l.filter (fun k => decide (x <+: k)) = [] := by
    intro l hl
    refine List.filter_eq_nil_iff.mpr fun k hk hx => hn ⟨k, hl k hk, by simpa using hx⟩
  rw [hf _ (fun k h => .inl h), hf _ (fun k h => .inr h)]
  rfl

theorem blk_wf {p : Payload} (hc : p.Consistent) (hp : p.Plain) : p.blk.WF where
  upd_ne := hp.upd
  key k hk := by
    obtain ⟨h1, h2⟩ := pre_spec (hc.counted k hk)
    exact hp.dirs k _ hk h1 h2
  count x r h := by
    obtain ⟨e, he, rfl⟩ := blk_entry h
    cases e with
    | count => rw [blk_total hc he]; rfl
    | _ => rw [blk_total_zero hc (by rw [he]; simp)]; rfl
  counted k hk := ⟨_, blk_get (pre_spec (hc.counted k hk)).1⟩
  free x r k h hr hk hx := by
    obtain ⟨e, he, rfl⟩ := blk_entry h
    cases e with
    | count =>
      have hr' : p.counted x ≠ 0 := fun e => hr (by simp [record, e])
      obtain ⟨k', hk', hx'⟩ := counted_key hr'
      obtain ⟨h1, h2⟩ := pre_spec (hc.counted k hk)
      rcases List.prefix_concat_iff.mp (by simpa using hx) with h | h
      · -- the prefix is the key followed by a slash
        have : p.pre k <+: k' := (h2.trans (List.prefix_append k [slash])).trans (h ▸ hx')
        exact hc.single k' x _ hk' he h1 hx' this
      · exact hc.single k x _ hk he h1 h h2
    | _ => simp [record] at hr
  inlineUpd x r h hv := by
    obtain ⟨e, he, rfl⟩ := blk_entry h
    cases e with
    | value v => exact hc.value x v he
    | _ => simp [record] at hv
  inlineDel x r h hv := by
    obtain ⟨e, he, rfl⟩ := blk_entry h
    cases e with
    | delete => exact hc.delete x he
    | _ => simp [record] at hv
  subUpd id r k v hs hr hk := by
    obtain ⟨x, hx⟩ := (blk_sub hp).mp hs
    exact (hc.item x id r k v hx hr hk).1
  subInline id r k v r' hs hr hk h := by
    obtain ⟨x, hx⟩ := (blk_sub hp).mp hs
    obtain ⟨e, he, rfl⟩ := blk_entry h
    cases e with
    | value w => exact absurd he ((hc.item x id r k v hx hr hk).2 w)
    | _ => rfl
  subFun id r k v id' r' v' hs hr hk hs' hr' hk' := by
    obtain ⟨x, hx⟩ := (blk_sub hp).mp hs
    obtain ⟨x', hx'⟩ := (blk_sub hp).mp hs'
    exact hc.agree x id r k v x' id' r' v' hx hr hk hx' hr' hk'
  subDel id r k hs hr hk := by
    obtain ⟨x, hx⟩ := (blk_sub hp).mp hs
    exact hc.itemDel x id r k hx hr hk
  size id hs := by
    obtain ⟨x, hx⟩ := (blk_sub hp).mp hs
    exact hp.size x id hx

theorem blk_mine {C : Codec} {p : Payload} (hp : p.Plain) {i : MsgId} {v : Bytes} (hi : p.Part i) (hv : p.Says C i v) :
    Blk.Mine C p.blk i v := by
  cases i with
  | batch h =>
    obtain rfl : h = p.hash := hi
    obtain ⟨b, h1, h2⟩ := hv
    exact .header (B := p.blk) v b h1 ⟨h2.number, by rw [h2.weight]; simp [blk, bytesNat_natBytes], h2.parent,
      fun x => by rw [h2.updates]; simp [blk, gmapVals_get]⟩
  | subHeader h id =>
    obtain ⟨rfl, hx⟩ := hi
    exact .subHeader (B := p.blk) id v ((blk_sub hp).mpr hx) hv
  | subMsg h id i =>
    obtain ⟨rfl, hx, h0, hl⟩ := hi
    obtain ⟨r, r', h1, h2, h3, h4⟩ := hv
    have : i = (i.toNat : Int) := by omega
    rw [this]
    exact .subMsg (B := p.blk) id i.toNat r r' v ((blk_sub hp).mpr hx) h1 h2 ⟨h3, h4⟩
  | update h k =>
    obtain ⟨rfl, _⟩ := hi
    exact .upd (B := p.blk) k v hv
  | delete h k =>
    obtain ⟨rfl, hk⟩ := hi
    exact .del (B := p.blk) k v ((GMap.contains_iff_mem_keys _).mpr hk)
  | reorg h => exact absurd hi id
  | reorgDone h => exact absurd hi id

theorem blk_part {p : Payload} (hp : p.Plain) {j : MsgId} (h : p.blk.Part j ∨ j = .batch p.hash) : p.Part j := by
  rcases h with h | rfl
  · cases h with
    | upd k h => exact ⟨rfl, h⟩
    | del k h => exact ⟨rfl, h⟩
    | subHeader id hs => exact ⟨rfl, (blk_sub hp).mp hs⟩
    | subMsg id i hs hr => exact ⟨rfl, (blk_sub hp).mp hs, by omega, by exact Int.ofNat_lt.mpr hr⟩
  · rfl

theorem own {C : Codec} {p : Payload} (hp : p.Plain) {received : List RMsg} (hh : p.Heard C received) {m : RMsg} (hm : m ∈ received)
    (e : hashOf m.key = p.blk.hash) : Blk.Own C p.blk m := by
  rcases hh m hm e with ⟨i, h1, h2, h3⟩ | ⟨h1, t, h2, h3⟩
  · exact .inl ⟨i, by rw [h2, wireKey_eq], blk_mine hp h1 h3⟩
  · refine .inr ⟨by omega, ?_⟩
    have : m.key.headD 0 = t := by
      cases hk : m.key with
      | nil => rw [hk] at h2; simp at h2
      | cons x l => rw [hk] at h2; simp at h2; simp [h2]
    rw [this]
    exact UInt8.not_lt.mpr h3

theorem assembled {C : Codec} {p : Payload} (hc : p.Consistent) (hp : p.Plain) {tracked : GoStr → Bool} {pb : PB}
    (hi : Blk.Inv C p.blk tracked pb) (hr : pb.ready = true) : p.Assembled tracked pb := by
  obtain ⟨h1, h2⟩ := hi.exact (blk_wf hc hp) hr
  refine ⟨hi.hash, hi.number, hi.parent, by rw [hi.weight]; simp [blk, bytesNat_natBytes], ?_, ?_⟩
  · intro k v
    rw [h1]
    constructor
    · rintro (⟨r, h, ht, hv, hne⟩ | ⟨h, ht⟩ | ⟨id, r, hl, hr, hk⟩)
      · obtain ⟨e, he, rfl⟩ := blk_entry h
        cases e with
        | value w => simp only [record] at hv; subst hv; exact .inl ⟨he, ht⟩
        | _ => simp [record] at hv; exact absurd hv hne
      · obtain ⟨h3, h4⟩ := pre_spec (hc.counted k (.inl ((GMap.mem_keys_iff _).mpr ⟨v, h⟩)))
        exact .inr (.inl ⟨h, _, h3, h4, ht⟩)
      · obtain ⟨x, hx, ht⟩ := (blk_live hp).mp hl
        exact .inr (.inr ⟨x, id, r, hx, ht, hr, hk⟩)
    · rintro (⟨h, ht⟩ | ⟨h, x, hx, hk, ht⟩ | ⟨x, id, r, hx, ht, hr, hk⟩)
      · exact .inl ⟨_, blk_get h, ht, rfl, hp.value k v h⟩
      · refine .inr (.inl ⟨h, ?_⟩)
        have := (pre_iff hc (x := x) (.inl ((GMap.mem_keys_iff _).mpr ⟨v, h⟩))).mpr ⟨hx, hk⟩
        show tracked (p.pre k) = true
        rw [this]; exact ht
      · exact .inr (.inr ⟨id, r, (blk_live hp).mpr ⟨x, hx, ht⟩, hr, hk⟩)
  · intro k
    rw [h2]
    constructor
    · rintro (⟨r, h, ht, hv⟩ | ⟨h, ht⟩ | ⟨id, r, hl, hr, hk⟩)
      · obtain ⟨e, he, rfl⟩ := blk_entry h
        cases e with
        | delete => exact .inl ⟨he, ht⟩
        | _ => simp [record] at hv
      · have hk := (GMap.contains_iff_mem_keys _).mp h
        obtain ⟨h3, h4⟩ := pre_spec (hc.counted k (.inr hk))
        exact .inr (.inl ⟨hk, _, h3, h4, ht⟩)
      · obtain ⟨x, hx, ht⟩ := (blk_live hp).mp hl
        exact .inr (.inr ⟨x, id, r, hx, ht, hr, hk⟩)
    · rintro (⟨h, ht⟩ | ⟨h, x, hx, hk, ht⟩ | ⟨x, id, r, hx, ht, hr, hk⟩)
      · exact .inl ⟨_, blk_get h, ht, rfl⟩
      · refine .inr (.inl ⟨(GMap.contains_iff_mem_keys _).mpr h, ?_⟩)
        have := (pre_iff hc (x := x) (.inr h)).mpr ⟨hx, hk⟩
        show tracked (p.pre k) = true
        rw [this]; exact ht
      · exact .inr (.inr ⟨id, r, (blk_live hp).mpr ⟨x, hx, ht⟩, hr, hk⟩)

end Spec.Payload

/-! ## C140 -/

/-- **C140**: whatever else arrives, every emitted block with the hash of the payload is the payload. -/
theorem C140_exact {C : Codec} (hC : C.Lawful) {env : Env} {p : Payload} (hc : p.Consistent) (hp : p.Plain) {cfg : Config} {mp mp' : MP}
    {received : List RMsg} (hn : newMP cfg = .ok mp) (hh : p.Heard C received) (hr : mp.run C env received = .ok mp') {pb : PB}
    (hpb : pb ∈ mp'.emitted) (he : pb.hash = p.hash) : p.Assembled cfg.tracked pb := by
  have hs := ((Blk.lift (env := env) (tracked := cfg.tracked) (frp := cfg.frp) hC true (Blk.only p.blk)
    (Blk.only_wf (Payload.blk_wf hc hp)) (.inl rfl)).parts (E0 := [])).toParts.run
    (fun _ hm => Blk.own_only (fun e => Payload.own hp hh hm e)) ⟨Base.newMP hn, LiftInv.newMP hn trivial⟩ hr
  obtain ⟨es, h1, hes⟩ := hs.2.emitted
  simp only [List.nil_append] at h1
  rw [h1] at hpb
  obtain ⟨h2, h3⟩ := hes pb hpb
  exact Payload.assembled hc hp (h2 p.blk (by rw [he]; exact Blk.only_self p.blk)) h3

/-- **C140**: when all its messages arrive, in whatever order, with whatever duplicates and whatever else in between, the payload is
emitted. -/
theorem C140_delivered {C : Codec} (hC : C.Lawful) {env : Env} {p : Payload} (hc : p.Consistent) (hp : p.Plain) {cfg : Config} {mp mp' : MP}
    {received : List RMsg} (hn : newMP cfg = .ok mp) (hk : Keeps env p.number) (hh : p.Heard C received) (ha : p.Arrived C received)
    (hr : mp.run C env received = .ok mp') : ∃ pb ∈ mp'.emitted, p.Assembled cfg.tracked pb := by
  have h0 := newMP_forgets hn p.hash
  obtain ⟨es, pb, h1, h2, h3⟩ := Blk.deliver (B := p.blk) (tracked := cfg.tracked) (frp := cfg.frp) (E0 := []) hC (Payload.blk_wf hc hp) hk
    (Base.newMP hn) (LiftInv.newMP hn trivial) (newMP_calm _ hn) h0.1 h0.2 (fun m hm e => Payload.own hp hh hm e)
    (fun j hj => by
      obtain ⟨m, hm, hk⟩ := ha j (Payload.blk_part hp (hj.imp And.left id))
      exact ⟨m, hm, by rw [hk, wireKey_eq]⟩) hr
  have hm : pb ∈ mp'.emitted := by rw [h1]; simp [h2]
  exact ⟨pb, hm, C140_exact hC hc hp hn hh hr hm h3⟩

/-- **C140**: a stream of nothing but messages of such payloads never makes the processor fault. -/
theorem C140_total {C : Codec} (hC : C.Lawful) {env : Env} {payloads : Payload → Prop} (hP : ∀ p, payloads p → p.Consistent ∧ p.Plain)
    (hd : ∀ p q, payloads p → payloads q → p.hash = q.hash → p = q) {cfg : Config} {mp : MP} (hn : newMP cfg = .ok mp)
    {received : List RMsg} (hr : ∀ m ∈ received, (∃ p, payloads p ∧ p.IsMessage C m.key m.value) ∨ NoContent m) :
    ∃ mp', mp.run C env received = .ok mp' ∧ ∀ p, payloads p → Keeps env p.number → p.Arrived C received →
      ∃ pb ∈ mp'.emitted, p.Assembled cfg.tracked pb := by
  classical
  have hhash : ∀ p : Payload, ∀ key v, p.IsMessage C key v → hashOf key = p.hash := by
    rintro p key v ⟨i, h1, rfl, _⟩
    rw [wireKey_eq]
    refine (keyOf_hash C i).trans ?_
    cases i with
    | batch h => exact h1
    | reorg h => exact absurd h1 id
    | reorgDone h => exact absurd h1 id
    | _ => exact h1.1
  have hheard : ∀ p, payloads p → p.Heard C received := by
    intro p hp m hm he
    rcases hr m hm with ⟨q, hq, h⟩ | h
    · obtain rfl := hd p q hp hq (he.symm.trans (hhash q _ _ h))
      exact .inl h
    · exact .inr h
  have hex : ∀ h, ∃ B : Blk, B.WF ∧ B.hash = h ∧ ∀ m ∈ received, hashOf m.key = h → Blk.Own C B m := by
    intro h
    by_cases hs : ∃ p, payloads p ∧ p.hash = h
    · obtain ⟨p, h1, rfl⟩ := hs
      exact ⟨p.blk, Payload.blk_wf (hP p h1).1 (hP p h1).2, rfl, fun m hm e => Payload.own (hP p h1).2 (hheard p h1) hm e⟩
    · refine ⟨emptyBlk h, emptyBlk_wf h, rfl, fun m hm hh => ?_⟩
      rcases hr m hm with ⟨q, hq, h2⟩ | ⟨h1, t, h2, h3⟩
      · exact absurd ⟨q, hq, (hhash q _ _ h2).symm.trans hh⟩ hs
      · refine .inr ⟨by omega, ?_⟩
        have : m.key.headD 0 = t := by
          cases hk : m.key with
          | nil => rw [hk] at h2; simp at h2
          | cons x l => rw [hk] at h2; simp at h2; simp [h2]
        rw [this]
        exact UInt8.not_lt.mpr h3
  have hL := Blk.lift (C := C) (env := env) (tracked := cfg.tracked) (frp := cfg.frp) hC false
    (fun h => some (Classical.choose (hex h)))
    (fun h B hB => by cases hB; exact ⟨(Classical.choose_spec (hex h)).1, (Classical.choose_spec (hex h)).2.1⟩)
    (.inr fun h => ⟨_, rfl⟩)
  obtain ⟨mp', h1, _⟩ := (hL.parts (E0 := [])).toParts.run_total (ms := received) (mp := mp)
    (fun m hm B hB => by cases hB; exact (Classical.choose_spec (hex (hashOf m.key))).2.2 m hm rfl)
    ⟨Base.newMP hn, LiftInv.newMP hn trivial⟩
  exact ⟨mp', h1, fun p hp hk ha => C140_delivered hC (hP p hp).1 (hP p hp).2 hn hk (hheard p hp) ha h1⟩

/-! ## The library's producer -/

/-- The entry a record stands for. -/
def entryOf (r : BatchRecord) : Entry :=
  if r.count ≠ 0 then .count else if r.subbatch ≠ Hash.zero then .subbatch r.subbatch else if r.delete then .delete else .value r.value

def payloadOf (schema : List RegexpPair) (a : BlockArgs) (subs : Hash → SubArgs) (b : Batch) : Payload where
  hash := a.hash
  number := a.number
  parent := a.parentHash
  weight := a.weight.natAbs
  entries := gmapVals (fun _ r => entryOf r) b.updates
  upd := (blkOf schema a subs b).upd
  del := (blkOf schema a subs b).del
  items := (blkOf schema a subs b).recs

section
variable {C : Codec} {schema : List RegexpPair} {a : BlockArgs} {subs : Hash → SubArgs} {ms : List Msg} {b : Batch}

theorem payloadOf_get {x : GoStr} {e : Entry} :
    (payloadOf schema a subs b).entries.get? x = some e ↔ ∃ r, b.updates.get? x = some r ∧ entryOf r = e := by
  simp [payloadOf, gmapVals_get]

/-- The kinds of the records in the header. -/
theorem payloadOf_kinds (h : HeaderOf schema a b) {x : GoStr} {r : BatchRecord} (hr : b.updates.get? x = some r) :
    (entryOf r = .count ∧ r.count ≠ 0 ∧ r = { count := ((blkOf schema a subs b).total x : Int) }) ∨
    (r.count = 0 ∧ ∃ id, a.batches.get? x = some id ∧ id ≠ Hash.zero ∧ r = { subbatch := id } ∧ entryOf r = .subbatch id) ∨
    (r.count = 0 ∧ r = { delete := true } ∧ entryOf r = .delete) ∨
    (r.count = 0 ∧ ∃ v, a.updates.get? x = some v ∧ r = { value := v } ∧ entryOf r = .value v) := by
  have hid : ∀ id, a.batches.get? x = some id → id ≠ Hash.zero := by
    intro id hi hz
    obtain ⟨x', r', h1, h2, h3⟩ := (h.sub (subs := subs)).mpr ⟨x, hi⟩
    exact h3 hz
  rcases h.cases hr with ⟨hc, rfl⟩ | ⟨_, i, hi, rfl⟩ | ⟨_, _, _, rfl⟩ | ⟨_, _, v, hv, rfl⟩
  · have : blockCount schema a.updates a.deletes x ≠ 0 := blockCount_pos_iff.mpr hc
    exact .inl ⟨by simp [entryOf, this], by simpa using this, by rw [blkOf_total]⟩
  · exact .inr (.inl ⟨rfl, i, hi, hid i hi, rfl, by simp [entryOf, hid i hi]⟩)
  · exact .inr (.inr (.inl ⟨rfl, rfl, by simp [entryOf]⟩))
  · exact .inr (.inr (.inr ⟨rfl, v, hv, rfl, by simp [entryOf]⟩))

theorem payloadOf_count (h : HeaderOf schema a b) {x : GoStr} : (payloadOf schema a subs b).entries.get? x = some .count ↔
    ∃ r, b.updates.get? x = some r ∧ r.count ≠ 0 := by
  rw [payloadOf_get]
  constructor
  · rintro ⟨r, hr, he⟩
    rcases payloadOf_kinds (subs := subs) h hr with ⟨_, h1, _⟩ | ⟨_, i, _, _, _, h1⟩ | ⟨_, _, h1⟩ | ⟨_, v, _, _, h1⟩
    · exact ⟨r, hr, h1⟩
    all_goals rw [he] at h1; cases h1
  · rintro ⟨r, hr, hc⟩
    exact ⟨r, hr, by simp [entryOf, hc]⟩

theorem payloadOf_sub (h : HeaderOf schema a b) {x : GoStr} {id : Hash} :
    (payloadOf schema a subs b).entries.get? x = some (.subbatch id) ↔ ∃ r, b.updates.get? x = some r ∧ r.subbatch = id ∧ id ≠ Hash.zero := by
  rw [payloadOf_get]
  constructor
  · rintro ⟨r, hr, he⟩
    rcases payloadOf_kinds (subs := subs) h hr with ⟨h1, _⟩ | ⟨_, i, _, hz, h2, h1⟩ | ⟨_, _, h1⟩ | ⟨_, v, _, _, h1⟩
    · rw [he] at h1; cases h1
    · rw [he] at h1; cases h1; exact ⟨r, hr, by rw [h2], hz⟩
    all_goals rw [he] at h1; cases h1
  · rintro ⟨r, hr, h1, hz⟩
    refine ⟨r, hr, ?_⟩
    rcases payloadOf_kinds (subs := subs) h hr with ⟨_, _, h2⟩ | ⟨_, i, _, _, h2, h3⟩ | ⟨_, h2, _⟩ | ⟨_, v, _, h2, _⟩
    · rw [h2] at h1; exact absurd h1.symm hz
    · rw [h3]; rw [h2] at h1; simp only at h1; rw [h1]
    · rw [h2] at h1; exact absurd h1.symm hz
    · rw [h2] at h1; exact absurd h1.symm hz

theorem payloadOf_delete (h : HeaderOf schema a b) {x : GoStr} : (payloadOf schema a subs b).entries.get? x = some .delete ↔
    ∃ r, b.updates.get? x = some r ∧ r.delete = true := by
  rw [payloadOf_get]
  constructor
  · rintro ⟨r, hr, he⟩
    rcases payloadOf_kinds (subs := subs) h hr with ⟨h1, _⟩ | ⟨_, i, _, hz, h2, h1⟩ | ⟨_, h2, h1⟩ | ⟨_, v, _, _, h1⟩
    · rw [he] at h1; cases h1
    · rw [he] at h1; cases h1
    · exact ⟨r, hr, by rw [h2]⟩
    · rw [he] at h1; cases h1
  · rintro ⟨r, hr, h1⟩
    refine ⟨r, hr, ?_⟩
    rcases payloadOf_kinds (subs := subs) h hr with ⟨_, _, h2⟩ | ⟨_, i, _, _, h2, h3⟩ | ⟨_, h2, h3⟩ | ⟨_, v, _, h2, _⟩
    · rw [h2] at h1; cases h1
    · rw [h2] at h1; cases h1
    · exact h3
    · rw [h2] at h1; cases h1

theorem payloadOf_value (h : HeaderOf schema a b) (hw : WellFormed schema a subs) {x : GoStr} {v : Bytes} :
    (payloadOf schema a subs b).entries.get? x = some (.value v) ↔ ∃ r, b.updates.get? x = some r ∧ r.value = v ∧ v ≠ [] := by
  rw [payloadOf_get]
  constructor
  · rintro ⟨r, hr, he⟩
    rcases payloadOf_kinds (subs := subs) h hr with ⟨h1, _⟩ | ⟨_, i, _, hz, h2, h1⟩ | ⟨_, h2, h1⟩ | ⟨_, w, hv, h2, h1⟩
    · rw [he] at h1; cases h1
    · rw [he] at h1; cases h1
    · rw [he] at h1; cases h1
    · rw [he] at h1; cases h1; exact ⟨r, hr, by rw [h2], hw.values x v hv⟩
  · rintro ⟨r, hr, h1, hz⟩
    refine ⟨r, hr, ?_⟩
    rcases payloadOf_kinds (subs := subs) h hr with ⟨_, _, h2⟩ | ⟨_, i, _, _, h2, h3⟩ | ⟨_, h2, h3⟩ | ⟨_, w, _, h2, h3⟩
    · rw [h2] at h1; exact absurd h1.symm hz
    · rw [h2] at h1; exact absurd h1.symm hz
    · rw [h2] at h1; exact absurd h1.symm hz
    · rw [h3]; rw [h2] at h1; simp only at h1; rw [h1]

/-- The counted prefix of a key. -/
theorem payloadOf_pre (h : HeaderOf schema a b) (hw : WellFormed schema a subs) {k x : GoStr} (hk : (payloadOf schema a subs b).Key k) :
    (payloadOf schema a subs b).entries.get? x = some .count ∧ x <+: k ↔ x = (blkOf schema a subs b).pre k := by
  have hwf := blkOf_wf h hw
  constructor
  · rintro ⟨h1, h2⟩
    obtain ⟨r, hr, hc⟩ := (payloadOf_count h).mp h1
    exact hwf.free x r k hr hc hk (h2.trans (List.prefix_append k [slash]))
  · rintro rfl
    obtain ⟨r, hr⟩ := hwf.counted k hk
    refine ⟨(payloadOf_count h).mpr ⟨r, hr, ?_⟩, DirPrefix.isPrefix (hwf.key k hk).2⟩
    rw [hwf.count _ r hr]
    intro e
    have e' : (blkOf schema a subs b).total ((blkOf schema a subs b).pre k) = 0 := by omega
    unfold Blk.total at e'
    have : ∀ l : List GoStr, k ∈ l → 0 < (l.filter (fun k' => decide ((blkOf schema a subs b).pre k' = (blkOf schema a subs b).pre k))).length :=
      fun l hl => List.length_pos_of_mem (List.mem_filter.mpr ⟨hl, by simp⟩)
    rcases hk with hk | hk
    · have := this _ hk; simp only [payloadOf] at this; omega
    · have := this _ hk; simp only [payloadOf] at this; omega

theorem payloadOf_consistent (h : HeaderOf schema a b) (hw : WellFormed schema a subs) : (payloadOf schema a subs b).Consistent where
  counted k hk := ⟨_, (payloadOf_pre h hw hk).mpr rfl⟩
  single k x y hk hx hy h1 h2 := ((payloadOf_pre h hw hk).mp ⟨hx, h1⟩).trans ((payloadOf_pre h hw hk).mp ⟨hy, h2⟩).symm
  value k v hv := by
    obtain ⟨r, hr, h1, h2⟩ := (payloadOf_value h hw).mp hv
    exact (blkOf_wf h hw).inlineUpd k r hr (by rw [h1]; exact h2)
  delete k hv := by
    obtain ⟨r, hr, h1⟩ := (payloadOf_delete h).mp hv
    exact (blkOf_wf h hw).inlineDel k r hr h1
  item x id r k v hx hr hk := by
    obtain ⟨r1, h1, h2, h3⟩ := (payloadOf_sub h).mp hx
    refine ⟨(blkOf_wf h hw).subUpd id r k v ⟨x, r1, h1, h2, h3⟩ hr hk, fun w hwv => ?_⟩
    obtain ⟨r2, g1, g2, g3⟩ := (payloadOf_value h hw).mp hwv
    exact g3 (g2.symm.trans ((blkOf_wf h hw).subInline id r k v r2 ⟨x, r1, h1, h2, h3⟩ hr hk g1))
  agree x id r k v x' id' r' v' hx hr hk hx' hr' hk' := by
    obtain ⟨r1, h1, h2, h3⟩ := (payloadOf_sub h).mp hx
    obtain ⟨r2, g1, g2, g3⟩ := (payloadOf_sub h).mp hx'
    exact (blkOf_wf h hw).subFun id r k v id' r' v' ⟨x, r1, h1, h2, h3⟩ hr hk ⟨x', r2, g1, g2, g3⟩ hr' hk'
  itemDel x id r k hx hr hk := by
    obtain ⟨r1, h1, h2, h3⟩ := (payloadOf_sub h).mp hx
    exact (blkOf_wf h hw).subDel id r k ⟨x, r1, h1, h2, h3⟩ hr hk

theorem payloadOf_plain (h : HeaderOf schema a b) (hw : WellFormed schema a subs) : (payloadOf schema a subs b).Plain where
  upd k v hk := (blkOf_wf h hw).upd_ne k v hk
  value k v hk := by
    obtain ⟨_, _, _, h2⟩ := (payloadOf_value h hw).mp hk
    exact h2
  id x id hx := by
    obtain ⟨_, _, _, h2⟩ := (payloadOf_sub h).mp hx
    exact h2
  dirs k x hk hx hp := by
    obtain rfl := (payloadOf_pre h hw hk).mp ⟨hx, hp⟩
    exact (blkOf_wf h hw).key k hk
  size x id hx := by
    obtain ⟨r1, h1, h2, h3⟩ := (payloadOf_sub h).mp hx
    exact (blkOf_wf h hw).size id ⟨x, r1, h1, h2, h3⟩

theorem payloadOf_header (h : HeaderOf schema a b) (hw : WellFormed schema a subs) {b' : Batch} (hl : Blk.HdrLike b' b) :
    (payloadOf schema a subs b).Header b' where
  number := hl.number.trans h.number
  weight := by rw [hl.weight, h.weight, bytesNat_natBytes]; rfl
  parent := hl.parent.trans h.parent
  updates x := by
    rw [hl.entry]
    cases hr : b.updates.get? x with
    | none => simp [payloadOf, gmapVals_get, hr]
    | some r =>
      have hg : (payloadOf schema a subs b).entries.get? x = some (entryOf r) := payloadOf_get.mpr ⟨r, hr, rfl⟩
      rw [hg, Option.map_some]
      congr 1
      rcases payloadOf_kinds (subs := subs) h hr with ⟨h1, h0, h2⟩ | ⟨_, i, _, _, h2, h1⟩ | ⟨_, h2, h1⟩ | ⟨_, w, _, h2, h1⟩
      · rw [h1]
        simp only [Payload.record]
        rw [h2]
        have hx : (payloadOf schema a subs b).entries.get? x = some .count := by rw [hg, h1]
        have e : (blkOf schema a subs b).total x = (payloadOf schema a subs b).counted x := by
          unfold Blk.total Payload.counted
          have hf : ∀ l : List GoStr, (∀ k ∈ l, (payloadOf schema a subs b).Key k) →
              l.filter (fun k => decide ((blkOf schema a subs b).pre k = x)) = l.filter (fun k => decide (x <+: k)) := by
            intro l hl
            refine List.filter_congr fun k hk => decide_eq_decide.mpr ?_
            have := payloadOf_pre h hw (x := x) (hl k hk)
            simp only [hx, true_and] at this
            rw [this]; exact eq_comm
          rw [hf (blkOf schema a subs b).upd.keys (fun k h => .inl h), hf (blkOf schema a subs b).del.keys (fun k h => .inr h)]
          rfl
        rw [e]
      · rw [h1]; exact h2
      · rw [h1]; exact h2
      · rw [h1]; exact h2

theorem payloadOf_assembled (h : HeaderOf schema a b) (hw : WellFormed schema a subs) (tracked : GoStr → Bool) (pb : PB) :
    (payloadOf schema a subs b).Assembled tracked pb ↔ Exact tracked schema a subs pb := by
  have hV : ∀ k v, ((payloadOf schema a subs b).entries.get? k = some (.value v) ∧ tracked k = true) ∨
      ((payloadOf schema a subs b).upd.get? k = some v ∧ ∃ x, (payloadOf schema a subs b).entries.get? x = some .count ∧ x <+: k ∧ tracked x = true) ∨
      (∃ x id r, (payloadOf schema a subs b).entries.get? x = some (.subbatch id) ∧ tracked x = true ∧
        r ∈ (payloadOf schema a subs b).items id ∧ r.updates.get? k = some v) ↔ ExpectedValue tracked schema a subs k v := by
    intro k v
    rw [← blkOf_expV h hw]
    unfold Blk.ExpV
    constructor
    · rintro (⟨h1, ht⟩ | ⟨h1, x, hx, hk, ht⟩ | ⟨x, id, r, hx, ht, hr, hk⟩)
      · obtain ⟨r, hr, h1, h2⟩ := (payloadOf_value h hw).mp h1
        exact .inl ⟨r, hr, ht, h1, h2⟩
      · obtain rfl := (payloadOf_pre h hw (.inl ((GMap.mem_keys_iff _).mpr ⟨v, h1⟩))).mp ⟨hx, hk⟩
        exact .inr (.inl ⟨h1, ht⟩)
      · obtain ⟨r1, h1, h2, h3⟩ := (payloadOf_sub h).mp hx
        exact .inr (.inr ⟨id, r, ⟨x, r1, h1, ht, h2, h3⟩, hr, hk⟩)
    · rintro (⟨r, hr, ht, h1, h2⟩ | ⟨h1, ht⟩ | ⟨id, r, ⟨x, r1, h1, ht, h2, h3⟩, hr, hk⟩)
      · exact .inl ⟨(payloadOf_value h hw).mpr ⟨r, hr, h1, h2⟩, ht⟩
      · obtain ⟨hx, hk⟩ := (payloadOf_pre h hw (k := k) (.inl ((GMap.mem_keys_iff _).mpr ⟨v, h1⟩))).mpr rfl
        exact .inr (.inl ⟨h1, _, hx, hk, ht⟩)
      · exact .inr (.inr ⟨x, id, r, (payloadOf_sub h).mpr ⟨r1, h1, h2, h3⟩, ht, hr, hk⟩)
  have hD : ∀ k, ((payloadOf schema a subs b).entries.get? k = some .delete ∧ tracked k = true) ∨
      (k ∈ (payloadOf schema a subs b).del.keys ∧ ∃ x, (payloadOf schema a subs b).entries.get? x = some .count ∧ x <+: k ∧ tracked x = true) ∨
      (∃ x id r, (payloadOf schema a subs b).entries.get? x = some (.subbatch id) ∧ tracked x = true ∧
        r ∈ (payloadOf schema a subs b).items id ∧ k ∈ r.delete) ↔ ExpectedDelete tracked schema a subs k := by
    intro k
    rw [← blkOf_expD h]
    unfold Blk.ExpD
    rw [GMap.contains_iff_mem_keys]
    constructor
    · rintro (⟨h1, ht⟩ | ⟨h1, x, hx, hk, ht⟩ | ⟨x, id, r, hx, ht, hr, hk⟩)
      · obtain ⟨r, hr, h1⟩ := (payloadOf_delete h).mp h1
        exact .inl ⟨r, hr, ht, h1⟩
      · obtain rfl := (payloadOf_pre h hw (.inr h1)).mp ⟨hx, hk⟩
        exact .inr (.inl ⟨h1, ht⟩)
      · obtain ⟨r1, h1, h2, h3⟩ := (payloadOf_sub h).mp hx
        exact .inr (.inr ⟨id, r, ⟨x, r1, h1, ht, h2, h3⟩, hr, hk⟩)
    · rintro (⟨r, hr, ht, h1⟩ | ⟨h1, ht⟩ | ⟨id, r, ⟨x, r1, h1, ht, h2, h3⟩, hr, hk⟩)
      · exact .inl ⟨(payloadOf_delete h).mpr ⟨r, hr, h1⟩, ht⟩
      · obtain ⟨hx, hk⟩ := (payloadOf_pre h hw (k := k) (.inr h1)).mpr rfl
        exact .inr (.inl ⟨h1, _, hx, hk, ht⟩)
      · exact .inr (.inr ⟨x, id, r, (payloadOf_sub h).mpr ⟨r1, h1, h2, h3⟩, ht, hr, hk⟩)
  have hwt := hw.weight
  constructor
  · intro g
    exact ⟨g.hash, g.number, g.parent, by have := g.weight; simp only [payloadOf] at this; omega,
      fun k v => (g.values k v).trans (hV k v), fun k => (g.deletes k).trans (hD k)⟩
  · intro g
    exact ⟨g.hash, g.number, g.parent, by have := g.weight; simp only [payloadOf]; omega,
      fun k v => (g.values k v).trans (hV k v).symm, fun k => (g.deletes k).trans (hD k).symm⟩

end

/-- **C140**: what the library's producers send for a block is such a payload, and it is the block: what a consumer should see of the one is
what it should see of the other. -/
theorem C140_producer {C : Codec} (hC : C.Lawful) {schema : List RegexpPair} {a : BlockArgs} {subs : Hash → SubArgs} {ms : List Msg}
    (hp : Produced C schema a subs ms) (hw : WellFormed schema a subs) :
    ∃ p : Payload, p.Consistent ∧ p.Plain ∧ p.hash = a.hash ∧ p.number = a.number ∧ (∀ m ∈ ms, p.IsMessage C m.key m.value) ∧
      (∀ i, p.Part i → ∃ m ∈ ms, m.key = wireKey C i) ∧ ∀ tracked pb, p.Assembled tracked pb ↔ Exact tracked schema a subs pb := by
  obtain ⟨b, hb⟩ := bridge hC hp hw
  have hsub : ∀ id, (blkOf schema a subs b).Sub id ↔ ∃ x, (payloadOf schema a subs b).entries.get? x = some (.subbatch id) := by
    intro id
    constructor
    · rintro ⟨x, r, h⟩; exact ⟨x, (payloadOf_sub hb.hdr).mpr ⟨r, h⟩⟩
    · rintro ⟨x, h⟩
      obtain ⟨r, h1, h2, h3⟩ := (payloadOf_sub hb.hdr).mp h
      exact ⟨x, r, h1, h2, h3⟩
  refine ⟨payloadOf schema a subs b, payloadOf_consistent hb.hdr hw, payloadOf_plain hb.hdr hw, rfl, rfl, ?_, ?_, payloadOf_assembled hb.hdr hw⟩
  · intro m hm
    obtain ⟨i, h1, h2⟩ := hb.mine m hm
    refine ⟨i, ?_, by rw [h1, wireKey_eq], ?_⟩
    · generalize m.value = v at h2
      cases h2 with
      | header v c h hl => rfl
      | upd k v h => exact ⟨rfl, (GMap.mem_keys_iff _).mpr ⟨v, h⟩⟩
      | del k v h => exact ⟨rfl, (GMap.contains_iff_mem_keys _).mp h⟩
      | subHeader id v hs h => exact ⟨rfl, (hsub id).mp hs⟩
      | subMsg id i r r' v hs hr h hl =>
        exact ⟨rfl, (hsub id).mp hs, by omega, Int.ofNat_lt.mpr (List.getElem?_eq_some_iff.mp hr).1⟩
    · generalize m.value = v at h2
      cases h2 with
      | header v c h hl => exact ⟨c, h, payloadOf_header hb.hdr hw hl⟩
      | upd k v h => exact h
      | del k v h => trivial
      | subHeader id v hs h => exact h
      | subMsg id i r r' v hs hr h hl => exact ⟨r, r', hr, h, hl.upd, hl.del⟩
  · intro i hi
    have : (blkOf schema a subs b).Part i ∨ i = .batch a.hash := by
      cases i with
      | batch h => obtain rfl : h = a.hash := hi; exact .inr rfl
      | subHeader h id => obtain ⟨rfl, h⟩ := hi; exact .inl (.subHeader (B := blkOf schema a subs b) id ((hsub id).mpr h))
      | subMsg h id i =>
        obtain ⟨rfl, h, h0, hl⟩ := hi
        have e : i = (i.toNat : Int) := by omega
        rw [e]
        refine .inl (.subMsg (B := blkOf schema a subs b) id i.toNat ((hsub id).mpr h) ?_)
        show i.toNat < ((payloadOf schema a subs b).items id).length
        omega
      | update h k => obtain ⟨rfl, h⟩ := hi; exact .inl (.upd (B := blkOf schema a subs b) k h)
      | delete h k => obtain ⟨rfl, h⟩ := hi; exact .inl (.del (B := blkOf schema a subs b) k h)
      | reorg h => exact absurd hi id
      | reorgDone h => exact absurd hi id
    obtain ⟨m, hm, hk⟩ := hb.all i this
    exact ⟨m, hm, by rw [hk, wireKey_eq]⟩

/-! ## Examples -/

namespace Spec.Payload

/-- The identities of the messages of a payload. -/
def parts (p : Payload) : List MsgId :=
  .batch p.hash :: (p.upd.keys.map (MsgId.update p.hash) ++ p.del.keys.map (MsgId.delete p.hash) ++
    p.entries.entries.flatMap fun e => match e.2 with
      | .subbatch id => .subHeader p.hash id :: (List.range (p.items id).length).map (fun i : Nat => MsgId.subMsg p.hash id (i : Int))
      | _ => [])

theorem mem_parts {p : Payload} {i : MsgId} : i ∈ p.parts ↔ p.Part i := by
  unfold parts
  simp only [List.mem_cons, List.mem_append, List.mem_map, List.mem_flatMap]
  constructor
  · rintro (rfl | (⟨k, hk, rfl⟩ | ⟨k, hk, rfl⟩) | ⟨⟨x, e⟩, he, hi⟩)
    · rfl
    · exact ⟨rfl, hk⟩
    · exact ⟨rfl, hk⟩
    · have hx := (GMap.get?_eq_some_iff _).mpr he
      cases e with
      | subbatch id =>
        simp only [List.mem_cons, List.mem_map, List.mem_range] at hi
        rcases hi with rfl | ⟨n, hn, rfl⟩
        · exact ⟨rfl, x, hx⟩
        · exact ⟨rfl, ⟨x, hx⟩, by omega, by omega⟩
      | _ => simp at hi
  · intro h
    cases i with
    | batch b => obtain rfl : b = p.hash := h; exact .inl rfl
    | subHeader b id =>
      obtain ⟨rfl, x, hx⟩ := h
      exact .inr (.inr ⟨(x, .subbatch id), (GMap.get?_eq_some_iff _).mp hx, by simp⟩)
    | subMsg b id n =>
      obtain ⟨rfl, ⟨x, hx⟩, h0, hn⟩ := h
      refine .inr (.inr ⟨(x, .subbatch id), (GMap.get?_eq_some_iff _).mp hx, ?_⟩)
      simp only [List.mem_cons, List.mem_map, List.mem_range]
      exact .inr ⟨n.toNat, by omega, by congr 1; omega⟩
    | update b k => obtain ⟨rfl, h⟩ := h; exact .inr (.inl (.inl ⟨k, h, rfl⟩))
    | delete b k => obtain ⟨rfl, h⟩ := h; exact .inr (.inl (.inr ⟨k, h, rfl⟩))
    | reorg b => exact absurd h id
    | reorgDone b => exact absurd h id

/-- A `Batch` record of the payload. -/
def batch (p : Payload) : Batch := ⟨p.number, natBytes p.weight, p.parent, gmapVals p.record p.entries⟩

/-- The values one producer sends. -/
def encoded (C : Codec) (p : Payload) : MsgId → Bytes
  | .batch _ => C.encBatch p.batch
  | .subHeader _ id => C.encInt (p.items id).length
  | .subMsg _ id i => match (p.items id)[i.toNat]? with | some r => C.encSub r | none => []
  | .update _ k => (p.upd.get? k).getD []
  | _ => []

/-- The messages of one producer, as received. -/
def sends (C : Codec) (p : Payload) : List RMsg := p.parts.map (fun i => ⟨wireKey C i, p.encoded C i, 0, str "s:0"⟩)

theorem sends_arrived (C : Codec) (p : Payload) : p.Arrived C (p.sends C) :=
  fun i hi => ⟨_, List.mem_map.mpr ⟨i, mem_parts.mpr hi, rfl⟩, rfl⟩

/-- The numbers fit the wire. -/
def Fits (p : Payload) : Prop := p.batch.InRange ∧ ∀ e ∈ p.entries.entries, ∀ id, e.2 = .subbatch id →
  InInt32 (p.items id).length ∧ ∀ r ∈ p.items id, r.InRange

theorem sends_message {C : Codec} (hC : C.Lawful) {p : Payload} (hf : p.Fits) {m : RMsg} (hm : m ∈ p.sends C) : p.IsMessage C m.key m.value := by
  obtain ⟨i, hi, rfl⟩ := List.mem_map.mp hm
  have hp := mem_parts.mp hi
  refine ⟨i, hp, rfl, ?_⟩
  cases i with
  | batch h => exact ⟨p.batch, hC.batch _ hf.1, rfl, bytesNat_natBytes _, rfl, fun x => gmapVals_get _ _ _⟩
  | subHeader h id =>
    obtain ⟨_, x, hx⟩ := hp
    exact hC.int _ (hf.2 (x, .subbatch id) ((GMap.get?_eq_some_iff _).mp hx) id rfl).1
  | subMsg h id i =>
    obtain ⟨_, ⟨x, hx⟩, h0, hl⟩ := hp
    have hl' : i.toNat < (p.items id).length := by omega
    refine ⟨_, _, List.getElem?_eq_getElem hl', ?_, fun _ => rfl, fun _ => .rfl⟩
    simp only [encoded, List.getElem?_eq_getElem hl']
    exact hC.sub _ ((hf.2 (x, .subbatch id) ((GMap.get?_eq_some_iff _).mp hx) id rfl).2 _ (List.getElem_mem hl'))
  | update h k =>
    obtain ⟨v, hv⟩ := (GMap.mem_keys_iff _).mp hp.2
    show p.upd.get? k = some ((p.upd.get? k).getD [])
    rw [hv]; rfl
  | delete h k => trivial
  | reorg h => exact absurd hp id
  | reorgDone h => exact absurd hp id

/-- The items an entry stands for. -/
def under (p : Payload) : Entry → List SubBatchRecord
  | .subbatch id => p.items id
  | _ => []

/-- What the sub-batches set and delete. -/
def set (p : Payload) : List (GoStr × Bytes) := (p.entries.entries.flatMap (fun e => p.under e.2)).flatMap (·.updates.entries)

def unset (p : Payload) : List GoStr := (p.entries.entries.flatMap (fun e => p.under e.2)).flatMap (·.delete)

theorem mem_set {p : Payload} {x k : GoStr} {id : Hash} {r : SubBatchRecord} {v : Bytes} (hx : p.entries.get? x = some (.subbatch id))
    (hr : r ∈ p.items id) (hk : r.updates.get? k = some v) : (k, v) ∈ p.set :=
  List.mem_flatMap.mpr ⟨r, List.mem_flatMap.mpr ⟨_, (GMap.get?_eq_some_iff _).mp hx, hr⟩, (GMap.get?_eq_some_iff _).mp hk⟩

def Entry.isValue : Entry → Bool
  | .value _ => true
  | _ => false

/-- `Consistent` in terms of the lists of entries. -/
theorem consistent_of {p : Payload}
    (h1 : ∀ k ∈ p.upd.keys ++ p.del.keys, ∃ e ∈ p.entries.entries, e.2 = .count ∧ e.1 <+: k)
    (h2 : ∀ k ∈ p.upd.keys ++ p.del.keys, ∀ e ∈ p.entries.entries, ∀ e' ∈ p.entries.entries, e.2 = .count → e'.2 = .count →
      e.1 <+: k → e'.1 <+: k → e.1 = e'.1)
    (h3 : ∀ e ∈ p.entries.entries, (Entry.isValue e.2 = true → e.1 ∉ p.upd.keys) ∧ (e.2 = .delete → e.1 ∉ p.del.keys))
    (h4 : ∀ u ∈ p.set, u.1 ∉ p.upd.keys) (h5 : ∀ u ∈ p.set, ∀ e ∈ p.entries.entries, e.1 = u.1 → Entry.isValue e.2 = false)
    (h6 : ∀ u ∈ p.set, ∀ u' ∈ p.set, u'.1 = u.1 → u.2 = u'.2)
    (h7 : ∀ k ∈ p.unset, k ∉ p.del.keys) : p.Consistent where
  counted k hk := by
    obtain ⟨⟨x, e⟩, he, h, hp⟩ := h1 k (by simpa [Key] using hk)
    simp only at h; subst h
    exact ⟨x, (GMap.get?_eq_some_iff _).mpr he, hp⟩
  single k x y hk hx hy hp hq :=
    h2 k (by simpa [Key] using hk) _ ((GMap.get?_eq_some_iff _).mp hx) _ ((GMap.get?_eq_some_iff _).mp hy) rfl rfl hp hq
  value k v hv := (h3 _ ((GMap.get?_eq_some_iff _).mp hv)).1 rfl
  delete k hv := (h3 _ ((GMap.get?_eq_some_iff _).mp hv)).2 rfl
  item x id r k v hx hr hk := by
    refine ⟨h4 _ (mem_set hx hr hk), fun w hw => ?_⟩
    have := h5 _ (mem_set hx hr hk) _ ((GMap.get?_eq_some_iff _).mp hw) rfl
    simp [Entry.isValue] at this
  agree x id r k v x' id' r' v' hx hr hk hx' hr' hk' := h6 _ (mem_set hx hr hk) _ (mem_set hx' hr' hk') rfl
  itemDel x id r k hx hr hk :=
    h7 k (List.mem_flatMap.mpr ⟨_, List.mem_flatMap.mpr ⟨_, (GMap.get?_eq_some_iff _).mp hx, hr⟩, hk⟩)

end Spec.Payload

/-- The worked example of `SPEC_example.md`: hash, batch identifier and content are those of the text. -/
def specHash : Hash := bytesToHash [0xde, 0xad, 0xbe, 0xef, 0x01, 0x23, 0x45, 0x67, 0x89, 0xab, 0xcd, 0xef, 0, 0, 0, 0, 0, 0, 0, 0xfe, 0xdc, 0xba,
  0x98, 0x76, 0x54, 0x32, 0x1f, 0xff, 0xff, 0xff, 0xff, 0xff]

def specId : Hash := bytesToHash [1]

instance (b : Batch) : Decidable b.InRange := inferInstanceAs (Decidable (_ ∧ _ ∧ _ ∧ ∀ e ∈ _, _ ∧ _ ∧ _))

instance (r : SubBatchRecord) : Decidable r.InRange := inferInstanceAs (Decidable (_ ∧ (∀ d ∈ _, _) ∧ _ ∧ ∀ e ∈ _, _ ∧ _))

def specPayload : Payload where
  hash := specHash
  number := 1337
  parent := Hash.zero
  weight := 0x2674
  entries := GMap.ofList [(str "a/", .count), (str "b/", .count), (str "q/", .count), (str "b/s", .subbatch specId),
    (str "x/19", .value [0x99, 0x99])]
  upd := GMap.ofList [(str "a/b", [0x88]), (str "q/17", [0x12, 0x34]), (str "q/18", [0x56, 0x78])]
  del := GMap.ofList [(str "b/c", ())]
  items := fun _ => [⟨[], GMap.ofList [(str "b/s/5", [0xab, 0xcd])]⟩, ⟨[str "b/s/4"], GMap.empty⟩]

/-- The keys of its messages are those of the text. -/
example : (specPayload.sends Avro.codec).map (·.key) =
    [0 :: specHash.bytes, 3 :: (specHash.bytes ++ [0x61, 0x2f, 0x62]), 3 :: (specHash.bytes ++ [0x71, 0x2f, 0x31, 0x37]),
     3 :: (specHash.bytes ++ [0x71, 0x2f, 0x31, 0x38]), 4 :: (specHash.bytes ++ [0x62, 0x2f, 0x63]), 1 :: (specHash.bytes ++ specId.bytes),
     2 :: (specHash.bytes ++ specId.bytes ++ [0]), 2 :: (specHash.bytes ++ specId.bytes ++ [2])] := by decide +kernel

/-- And so is the `updates` map of its header. -/
example : specPayload.batch.updates.entries = [(str "a/", { count := 1 }), (str "b/", { count := 1 }), (str "q/", { count := 2 }),
    (str "b/s", { subbatch := specId }), (str "x/19", { value := [0x99, 0x99] })] := by decide +kernel

theorem specPayload_consistent : specPayload.Consistent :=
  Payload.consistent_of (by decide +kernel) (by decide +kernel) (by decide +kernel) (by decide +kernel) (by decide +kernel)
        (by decide +kernel) (by decide +kernel)

theorem specPayload_plain : specPayload.Plain where
  upd k v h := by
    have : ∀ e ∈ specPayload.upd.entries, e.2 ≠ [] := by decide +kernel
    exact this _ ((GMap.get?_eq_some_iff _).mp h)
  value k v h := by
    have : ∀ e ∈ specPayload.entries.entries, e.2 ≠ .value [] := by decide +kernel
    rintro rfl
    exact this _ ((GMap.get?_eq_some_iff _).mp h) rfl
  id x id h := by
    have : ∀ e ∈ specPayload.entries.entries, e.2 ≠ .subbatch Hash.zero := by decide +kernel
    rintro rfl
    exact this _ ((GMap.get?_eq_some_iff _).mp h) rfl
  dirs k x hk hx hp := by
    have : ∀ k ∈ specPayload.upd.keys ++ specPayload.del.keys, ∀ e ∈ specPayload.entries.entries, e.2 = .count → e.1 <+: k →
        ∃ d ∈ [str "a", str "b", str "q"], ∃ l ∈ [str "b", str "17", str "18", str "c"], e.1 = d ++ [47] ∧ k = d ++ [47] ++ l := by decide +kernel
    obtain ⟨d, hd, l, hl, h1, h2⟩ := this k (by simpa [Payload.Key] using hk) _ ((GMap.get?_eq_some_iff _).mp hx) rfl hp
    simp only at h1
    have ht : Tidy d := by
      have : ∀ d ∈ [str "a", str "b", str "q"], Tidy d := by decide +kernel
      exact this d hd
    have hn : (47 : UInt8) ∉ l := by
      have : ∀ l ∈ [str "b", str "17", str "18", str "c"], (47 : UInt8) ∉ l := by decide +kernel
      exact this l hl
    subst h1 h2
    exact ⟨⟨[d], l, by simpa using ht, hn, by simp [dirs]⟩, .inr ⟨[d], l, by simp, by simpa using ht, by simp [dirs], by simp [dirs]⟩⟩
  size x id h := by simp [specPayload]

/-- All hypotheses of `C140_delivered` hold of it: two producers send it, the messages of one in reverse order. -/
example : ∃ mp', exMP.run Avro.codec exEnv ((specPayload.sends Avro.codec).reverse ++ specPayload.sends Avro.codec) = .ok mp' ∧
    ∃ pb ∈ mp'.emitted, specPayload.Assembled exCfg.tracked pb := by
  have hf : specPayload.Fits := ⟨by decide +kernel, fun e he id h => by
    refine ⟨by simp [specPayload, InInt32], fun r hr => ?_⟩
    have : ∀ r ∈ specPayload.items specId, r.InRange := by decide +kernel
    exact this r hr⟩
  have hm : ∀ m ∈ (specPayload.sends Avro.codec).reverse ++ specPayload.sends Avro.codec, specPayload.IsMessage Avro.codec m.key m.value := by
    intro m h
    exact Payload.sends_message Avro.codec_lawful hf (by simpa using h)
  obtain ⟨mp', h1, h2⟩ := C140_total Avro.codec_lawful (env := exEnv) (payloads := (· = specPayload))
    (by rintro p rfl; exact ⟨specPayload_consistent, specPayload_plain⟩) (by rintro p q rfl rfl _; rfl) exMP_new
    (fun m h => .inl ⟨_, rfl, hm m h⟩)
  refine ⟨mp', h1, h2 _ rfl (exEnv_keeps _) fun i hi => ?_⟩
  obtain ⟨m, hm, hk⟩ := Payload.sends_arrived Avro.codec specPayload i hi
  exact ⟨m, by simp [hm], hk⟩

/-! ## What SPEC.md does not say -/

/-- A payload of one counted prefix. -/
def onePrefix (x k : GoStr) : Payload where
  hash := exHash 1
  number := 1
  parent := Hash.zero
  weight := 1
  entries := GMap.ofList [(x, .count)]
  upd := GMap.ofList [(k, [7])]
  del := GMap.empty
  items := fun _ => []

theorem onePrefix_messages {x k : GoStr} (hb : (onePrefix x k).batch.InRange) {m : RMsg} (hm : m ∈ (onePrefix x k).sends Avro.codec) :
    (onePrefix x k).IsMessage Avro.codec m.key m.value :=
  Payload.sends_message Avro.codec_lawful ⟨hb, fun _ _ _ _ => ⟨by simp [onePrefix, InInt32], fun r hr => by simp [onePrefix] at hr⟩⟩ hm

/-- **C140**: prefixes must be directories: a block counted under the prefix `ab` of the key `abc` is never emitted, although all its
messages arrive. -/
theorem C140_needs_dirs : ∃ (p : Payload) (received : List RMsg) (mp' : MP), p.Consistent ∧ (∀ k v, p.upd.get? k = some v → v ≠ []) ∧
    (∀ m ∈ received, p.IsMessage Avro.codec m.key m.value) ∧ p.Arrived Avro.codec received ∧ (∀ k, p.Key k → TidyKey k) ∧
    exMP.run Avro.codec exEnv received = .ok mp' ∧ mp'.emitted = [] := by
  obtain ⟨mp', h1, h2⟩ := ex_ok (r := exMP.run Avro.codec exEnv ((onePrefix (str "ab") (str "abc")).sends Avro.codec))
    (fun mp : MP => mp.emitted.isEmpty) (by decide +kernel)
  refine ⟨onePrefix (str "ab") (str "abc"), _, mp', Payload.consistent_of (by decide +kernel) (by decide +kernel) (by decide +kernel)
    (by decide +kernel) (by decide +kernel) (by decide +kernel) (by decide +kernel), fun k v hv => ?_, fun m hm => onePrefix_messages (by decide +kernel) hm,
    Payload.sends_arrived _ _, fun k hk => ?_, h1, by simpa using h2⟩
  · have : ∀ e ∈ (onePrefix (str "ab") (str "abc")).upd.entries, e.2 ≠ [] := by decide +kernel
    exact this _ ((GMap.get?_eq_some_iff _).mp hv)
  · have : ∀ k ∈ (onePrefix (str "ab") (str "abc")).upd.keys ++ (onePrefix (str "ab") (str "abc")).del.keys, k = str "abc" := by decide +kernel
    rw [this k (by simpa [Payload.Key] using hk)]
    exact ⟨[], str "abc", by simp, by decide +kernel, by simp [dirs]⟩

/-- **C140**: and they must be made of ordinary names: a block counted under the prefix `a//` is never emitted either. -/
theorem C140_needs_tidy : ∃ (p : Payload) (received : List RMsg) (mp' : MP), p.Consistent ∧ (∀ k v, p.upd.get? k = some v → v ≠ []) ∧
    (∀ m ∈ received, p.IsMessage Avro.codec m.key m.value) ∧ p.Arrived Avro.codec received ∧
    (∀ x, p.entries.get? x = some .count → x = str "a//") ∧ exMP.run Avro.codec exEnv received = .ok mp' ∧ mp'.emitted = [] := by
  obtain ⟨mp', h1, h2⟩ := ex_ok (r := exMP.run Avro.codec exEnv ((onePrefix (str "a//") (str "a//b")).sends Avro.codec))
    (fun mp : MP => mp.emitted.isEmpty) (by decide +kernel)
  refine ⟨onePrefix (str "a//") (str "a//b"), _, mp', Payload.consistent_of (by decide +kernel) (by decide +kernel) (by decide +kernel)
    (by decide +kernel) (by decide +kernel) (by decide +kernel) (by decide +kernel), fun k v hv => ?_, fun m hm => onePrefix_messages (by decide +kernel) hm,
    Payload.sends_arrived _ _, fun x hx => ?_, h1, by simpa using h2⟩
  · have : ∀ e ∈ (onePrefix (str "a//") (str "a//b")).upd.entries, e.2 ≠ [] := by decide +kernel
    exact this _ ((GMap.get?_eq_some_iff _).mp hv)
  · have : ∀ e ∈ (onePrefix (str "a//") (str "a//b")).entries.entries, e.1 = str "a//" := by decide +kernel
    exact this _ ((GMap.get?_eq_some_iff _).mp hx)

/-- A payload of one entry in the `updates` map and, if this is a sub-batch, one item. -/
def oneEntry (e : Entry) : Payload where
  hash := exHash 1
  number := 1
  parent := Hash.zero
  weight := 1
  entries := GMap.ofList [(str "a", e)]
  upd := GMap.empty
  del := GMap.empty
  items := fun _ => [⟨[], GMap.ofList [(str "b", [7])]⟩]

theorem oneEntry_messages {e : Entry} (hb : (oneEntry e).batch.InRange) {m : RMsg} (hm : m ∈ (oneEntry e).sends Avro.codec) :
    (oneEntry e).IsMessage Avro.codec m.key m.value := by
  refine Payload.sends_message Avro.codec_lawful ⟨hb, fun _ _ _ _ => ⟨by simp [oneEntry, InInt32], fun r hr => ?_⟩⟩ hm
  have : ∀ r ∈ (oneEntry .delete).items Hash.zero, r.InRange := by decide +kernel
  exact this r hr

/-- The only emitted block lacks the key. -/
def lacksKey (k : GoStr) (mp : MP) : Bool := match mp.emitted with
  | [pb] => decide (pb.hash = exHash 1 ∧ pb.values.get? k = none)
  | _ => false

theorem lacksKey_spec {k : GoStr} {mp : MP} (h : lacksKey k mp = true) : ∃ pb, mp.emitted = [pb] ∧ pb.hash = exHash 1 ∧ pb.values.get? k = none := by
  unfold lacksKey at h
  split at h
  · rename_i pb hpb
    exact ⟨pb, hpb, of_decide_eq_true h⟩
  · simp at h

/-- **C140**: the identifier of a sub-batch must not be zero: the block is emitted without what the sub-batch sets. -/
theorem C140_needs_id : ∃ (p : Payload) (received : List RMsg) (mp' : MP) (pb : PB) (x k : GoStr) (id : Hash) (r : SubBatchRecord), p.Consistent ∧
    (∀ m ∈ received, p.IsMessage Avro.codec m.key m.value) ∧ p.Arrived Avro.codec received ∧
    p.entries.get? x = some (.subbatch id) ∧ r ∈ p.items id ∧ r.updates.get? k = some [7] ∧
    exMP.run Avro.codec exEnv received = .ok mp' ∧ mp'.emitted = [pb] ∧ pb.hash = p.hash ∧ pb.values.get? k = none := by
  obtain ⟨mp', h1, h2⟩ := ex_ok (r := exMP.run Avro.codec exEnv ((oneEntry (.subbatch Hash.zero)).sends Avro.codec))
    (lacksKey (str "b")) (by decide +kernel)
  obtain ⟨pb, h3, h4, h5⟩ := lacksKey_spec h2
  exact ⟨oneEntry (.subbatch Hash.zero), _, mp', pb, str "a", str "b", Hash.zero, ⟨[], GMap.ofList [(str "b", [7])]⟩,
    Payload.consistent_of (by decide +kernel) (by decide +kernel) (by decide +kernel)
    (by decide +kernel) (by decide +kernel) (by decide +kernel) (by decide +kernel), fun m hm => oneEntry_messages (by decide +kernel) hm,
    Payload.sends_arrived _ _, by decide +kernel, by simp [oneEntry], by decide +kernel, h1, h3, h4, h5⟩

/-- **C140**: a value in the `updates` map must not be empty: the block is emitted without it. -/
theorem C140_needs_value : ∃ (p : Payload) (received : List RMsg) (mp' : MP) (pb : PB) (k : GoStr), p.Consistent ∧
    (∀ m ∈ received, p.IsMessage Avro.codec m.key m.value) ∧ p.Arrived Avro.codec received ∧ p.entries.get? k = some (.value []) ∧
    exMP.run Avro.codec exEnv received = .ok mp' ∧ mp'.emitted = [pb] ∧ pb.hash = p.hash ∧ pb.values.get? k = none := by
  obtain ⟨mp', h1, h2⟩ := ex_ok (r := exMP.run Avro.codec exEnv ((oneEntry (.value [])).sends Avro.codec)) (lacksKey (str "a")) (by decide +kernel)
  obtain ⟨pb, h3, h4, h5⟩ := lacksKey_spec h2
  exact ⟨oneEntry (.value []), _, mp', pb, str "a", Payload.consistent_of (by decide +kernel) (by decide +kernel) (by decide +kernel)
    (by decide +kernel) (by decide +kernel) (by decide +kernel) (by decide +kernel), fun m hm => oneEntry_messages (by decide +kernel) hm,
    Payload.sends_arrived _ _, by decide +kernel, h1, h3, h4, h5⟩

end Verif
