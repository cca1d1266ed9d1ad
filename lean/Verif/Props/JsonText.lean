import Verif.Proofs.JsonDecode
import Verif.Props.Websocket
/-!
# C118: the text of a websocket message
-/
namespace Verif
open Spec

/-! ## What is claimed -/

/-- The numbers of the message fit their types: an unsigned 64-bit number, and a weight that `hexutil.Big` can carry. -/
def Spec.InRange : WMsg → Prop
  | .reorg n _ => n < 2 ^ 64
  | .batch b => b.number < 2 ^ 64 ∧ 0 ≤ b.weight ∧ b.weight < 2 ^ 256
  | .ready => True
  | .sub _ => True
  | .hollow => False
  | .unknown => False

/-- All text in the message is UTF-8. -/
def Spec.AllText : WMsg → Prop
  | .batch b => (∀ k ∈ b.values.keys, Utf8 k) ∧ (∀ k ∈ b.deletes, Utf8 k) ∧ ∀ k ∈ b.batches.keys, Utf8 k
  | .sub s => (∀ k ∈ s.values.keys, Utf8 k) ∧ ∀ k ∈ s.deletes, Utf8 k
  | _ => True

/-- The second message says the same as the first. -/
def Spec.SameMessage : WMsg → WMsg → Prop
  | .ready, .ready => True
  | .reorg n h, .reorg n' h' => n' = n ∧ h' = h
  | .batch b, .batch b' => b'.number = b.number ∧ b'.weight = b.weight ∧ b'.hash = b.hash ∧ b'.parentHash = b.parentHash ∧
      (∀ k, b'.values.get? k = b.values.get? k) ∧ b'.deletes = b.deletes ∧ ∀ k, b'.batches.get? k = b.batches.get? k
  | .sub s, .sub s' => s'.hash = s.hash ∧ s'.batchId = s.batchId ∧ (∀ k, s'.values.get? k = s.values.get? k) ∧ s'.deletes = s.deletes
  | _, _ => False

/-- The consumer of subscription `subid` takes the bytes for the message, whatever it has read before. -/
def Spec.TakenFor (subid : Nat) (bytes : Bytes) (m : WMsg) : Prop :=
  ∀ n : JNote, ∃ i, (n.read bytes).item subid = some i ∧ i.msg = some m

/-- The effect of JSON in `Model/Websocket.lean`. -/
def Spec.throughJson (o : MapOrder) : WMsg → WMsg
  | .batch b => .batch (b.json o)
  | .sub s => .sub (s.json o)
  | m => m

/-! ## What is read -/

/-- A message after writing and reading. -/
def WMsg.reread : WMsg → WMsg
  | .batch b => .batch { b with values := Verif.reread b.values, deletes := b.deletes.map jsonString, batches := Verif.reread b.batches }
  | .sub s => .sub { s with values := Verif.reread s.values, deletes := s.deletes.map jsonString }
  | m => m

theorem decItem_batch {ty : String} {l : List (GoStr × Json)} {b : JBatch} {go : Bool} (ht : unquote (str ty) = some (str ty))
    (h : putMembers JBatch.member JBatch.zero l = (b, go)) :
    decItem (some (.obj [(str "type", .str (str ty)), (str "batch", .obj l)])) = ⟨str ty, some b, none⟩ := by
  simp only [decItem]
  rw [putMembers_go (y := { JItem.zero with type := str ty }) (by rw [item_type]; simp only [putString, ht]; rfl)]
  have hp : putPtr JBatch.zero JBatch.member none (.obj l) = (some b, go) := by
    simp only [putPtr, Option.getD_none, h]
  have : JItem.member { JItem.zero with type := str ty } (str "batch") (.obj l) = (⟨str ty, some b, none⟩, go) := by
    rw [item_batch]
    have : putPtr JBatch.zero JBatch.member ({ JItem.zero with type := str ty } : JItem).batch (.obj l) = (some b, go) := hp
    simp only [this]
    rfl
  cases go with
  | true => rw [putMembers_go this]; rfl
  | false => rw [putMembers_stop this]

theorem decItem_sub {l : List (GoStr × Json)} {s : TSub} (h : putMembers TSub.member TSub.zero l = (s, true)) :
    decItem (some (.obj [(str "type", .str (str "subbatch")), (str "subbatch", .obj l)])) = ⟨str "subbatch", none, some s⟩ := by
  have ht : unquote (str "subbatch") = some (str "subbatch") := by decide +kernel
  simp only [decItem]
  rw [putMembers_go (y := { JItem.zero with type := str "subbatch" }) (by rw [item_type]; simp only [putString, ht]; rfl)]
  have hp : putPtr TSub.zero TSub.member none (.obj l) = (some s, true) := by
    simp only [putPtr, Option.getD_none, h]
  have : JItem.member { JItem.zero with type := str "subbatch" } (str "subbatch") (.obj l) = (⟨str "subbatch", none, some s⟩, true) := by
    rw [item_sub]
    have : putPtr TSub.zero TSub.member ({ JItem.zero with type := str "subbatch" } : JItem).sub (.obj l) = (some s, true) := hp
    simp only [this]
    rfl
  rw [putMembers_go this]
  rfl

theorem parses_typed {ty : String} {name : String} {t : Bytes} {j : Json} (h : Parses t j) (hc : ∀ c ∈ str ty, PlainByte c) (hc' : ∀ c ∈ str name, PlainByte c)
    (hn : unquote (str name) = some (str name)) :
    Parses (objText [(str "type", quoted (str ty)), (str name, t)]) (.obj [(str "type", .str (str ty)), (str name, j)]) := by
  refine Parses.obj (l := [⟨str "type", _, str "type", _⟩, ⟨str name, _, str name, _⟩]) ?_
  intro e he
  simp only [List.mem_cons, List.not_mem_nil, or_false] at he
  rcases he with rfl | rfl
  · exact memOk (by decide +kernel) (by decide +kernel) (Parses.plain hc)
  · exact memOk hc' hn h

theorem two64 : (2 : Nat) ^ 64 = 16 ^ 16 := by decide +kernel

/-- **C118**, any message: whatever the consumer has read before, it takes the text of a message whose numbers fit their types for that message,
with every byte of its strings that is not UTF-8 replaced. -/
theorem C118_text_partial (w : JOpt) {subid : Nat} (hs : subid < 2 ^ 64) {m : WMsg} {t : Bytes} (ht : m.text w = some t) (hr : InRange m) :
    TakenFor subid (noteText subid t) m.reread := by
  rw [two64] at hs
  intro n
  cases m with
  | hollow => cases ht
  | unknown => cases ht
  | ready =>
    simp only [WMsg.text, Option.some.injEq] at ht
    subst ht
    have hp : Parses (objText [(str "type", quoted (str "ready"))]) (.obj [(str "type", .str (str "ready"))]) := by
      refine Parses.obj (l := [⟨str "type", _, str "type", _⟩]) ?_
      intro e he
      simp only [List.mem_cons, List.not_mem_nil, or_false] at he
      rcases he with rfl
      exact memOk (by decide +kernel) (by decide +kernel) (Parses.plain (by decide +kernel))
    refine ⟨_, item_note hp hs n, ?_⟩
    have hu : unquote (str "ready") = some (str "ready") := by decide +kernel
    simp only [decItem]
    rw [putMembers_go (y := { JItem.zero with type := str "ready" }) (by rw [item_type]; simp only [putString, hu]; rfl)]
    simp only [putMembers, JItem.msg]
    rw [if_pos trivial]
    rfl
  | reorg num h =>
    simp only [WMsg.text, Option.some.injEq] at ht
    subst ht
    have hp := parses_typed (ty := "reorg") (name := "batch") (parses_batch Parses.null Parses.null Parses.null num none h Hash.zero)
      (by decide +kernel) (by decide +kernel) (by decide +kernel)
    refine ⟨_, item_note hp hs n, ?_⟩
    have hd := decode_batch (number := num) (by rw [← two64]; exact hr) (weight := none) (wt := none) rfl h Hash.zero (vj := .null) (dj := .null) (bj := .null)
      (vs := GMap.empty) (ds := []) (bs := GMap.empty) rfl (fun _ => rfl) rfl
    rw [decItem_batch (by decide +kernel) hd]
    unfold JItem.msg
    dsimp only
    rw [if_neg (by decide +kernel), if_pos rfl]
    rfl
  | batch b =>
    obtain ⟨hr1, hr2, hr3⟩ := hr
    simp only [WMsg.text, Option.some.injEq] at ht
    subst ht
    obtain ⟨dj, hd1, hd2⟩ := parses_deletes w b.deletes
    obtain ⟨bj, hb1, hb2⟩ := parses_batches w b.batches
    have hp := parses_typed (ty := "batch") (name := "batch") (parses_batch (parses_map w parses_bytes b.values) hd1 hb1 b.number (some b.weight) b.hash b.parentHash)
      (by decide +kernel) (by decide +kernel) (by decide +kernel)
    refine ⟨_, item_note hp hs n, ?_⟩
    have hd := decode_batch (number := b.number) (by rw [← two64]; exact hr1) (putBig_weight hr2 hr3) b.hash b.parentHash (putMap_values b.values) hd2 hb2
    rw [decItem_batch (by decide +kernel) hd]
    unfold JItem.msg
    dsimp only
    rw [if_neg (by decide +kernel), if_neg (by decide +kernel), if_pos rfl]
    simp only [Option.some.injEq]
    unfold WMsg.reread
    have : (b.weight.toNat : Int) = b.weight := by omega
    rw [this]
  | sub s =>
    simp only [WMsg.text, Option.some.injEq] at ht
    subst ht
    obtain ⟨dj, hd1, hd2⟩ := parses_deletes w s.deletes
    have hp := parses_typed (ty := "subbatch") (name := "subbatch") (parses_sub (parses_map w parses_bytes s.values) hd1 s.hash s.batchId)
      (by decide +kernel) (by decide +kernel) (by decide +kernel)
    refine ⟨_, item_note hp hs n, ?_⟩
    rw [decItem_sub (decode_sub s.hash s.batchId (putMap_values s.values) hd2)]
    unfold JItem.msg
    dsimp only
    rw [if_neg (by decide +kernel), if_neg (by decide +kernel), if_neg (by decide +kernel), if_pos rfl]
    rfl

/-! ## Text that is UTF-8 -/

theorem sorted_perm {V : Type} (m : GMap GoStr V) : (sortedEntries m).Perm m.entries := List.mergeSort_perm _ _

theorem reread_entries {V : Type} {m : GMap GoStr V} (h : ∀ k ∈ m.keys, Utf8 k) : (reread m).entries = sortedEntries m := by
  have hp := sorted_perm m
  have hn : ((sortedEntries m).map Prod.fst).Nodup := (hp.map Prod.fst).nodup_iff.mpr m.nodup
  have hk : ∀ e ∈ sortedEntries m, jsonString e.1 = e.1 := fun e he =>
    jsonString_utf8 (h _ (List.mem_map_of_mem (f := Prod.fst) (hp.mem_iff.mp he)))
  have : ∀ (l : List (GoStr × V)) (acc : GMap GoStr V), (∀ e ∈ l, jsonString e.1 = e.1) →
      l.foldl (fun acc e => acc.insert (jsonString e.1) e.2) acc = l.foldl (fun acc e => acc.insert e.1 e.2) acc := by
    intro l
    induction l with
    | nil => intros; rfl
    | cons e l ih =>
      intro acc hl
      simp only [List.foldl_cons]
      rw [hl e (by simp), ih _ (fun x hx => hl x (by simp [hx]))]
  unfold reread
  rw [this _ _ hk]
  exact GMap.ofList_entries hn

theorem get?_reread {V : Type} {m : GMap GoStr V} (h : ∀ k ∈ m.keys, Utf8 k) (k : GoStr) : (reread m).get? k = m.get? k := by
  refine Option.ext (fun v => ?_)
  rw [GMap.get?_eq_some_iff, GMap.get?_eq_some_iff, reread_entries h]
  exact (sorted_perm m).mem_iff

theorem reread_same {m : WMsg} (hr : InRange m) (hu : AllText m) : SameMessage m m.reread := by
  cases m with
  | hollow => cases hr
  | unknown => cases hr
  | ready => trivial
  | reorg n h => exact ⟨rfl, rfl⟩
  | batch b => exact ⟨rfl, rfl, rfl, rfl, fun k => get?_reread hu.1 k, map_jsonString hu.2.1, fun k => get?_reread hu.2.2 k⟩
  | sub s => exact ⟨rfl, rfl, fun k => get?_reread hu.1 k, map_jsonString hu.2⟩

/-- **C118**, messages of UTF-8 text: what the consumer reads is what was sent. -/
theorem C118_same_partial (w : JOpt) {subid : Nat} (hs : subid < 2 ^ 64) {m : WMsg} {t : Bytes} (ht : m.text w = some t) (hr : InRange m) (hu : AllText m) :
    ∃ m', TakenFor subid (noteText subid t) m' ∧ SameMessage m m' := ⟨_, C118_text_partial w hs ht hr, reread_same hr hu⟩

/-! ## The effect of JSON in the rest of the model -/

/-- Rearranging a list by a list of positions. -/
def byIndex {α : Type} (idx : List Nat) (l : List α) : List α :=
  if idx.Perm (List.range l.length) then idx.filterMap (fun i => l[i]?) else l

theorem filterMap_range {α : Type} (l : List α) : (List.range l.length).filterMap (fun i => l[i]?) = l := by
  induction l with
  | nil => rfl
  | cons x l ih =>
    rw [List.length_cons, List.range_succ_eq_map, List.filterMap_cons]
    simp only [List.getElem?_cons_zero, List.filterMap_map]
    congr 1

theorem byIndex_perm {α : Type} (idx : List Nat) (l : List α) : (byIndex idx l).Perm l := by
  unfold byIndex
  split
  · rename_i h
    have := h.filterMap (fun i => l[i]?)
    rw [filterMap_range] at this
    exact this
  · exact List.Perm.refl _

theorem filterMap_some {α β : Type} {f : α → Option β} {g : α → β} {l : List α} (h : ∀ x ∈ l, f x = some (g x)) : l.filterMap f = l.map g := by
  induction l with
  | nil => rfl
  | cons x l ih =>
    rw [List.filterMap_cons, h x (by simp), List.map_cons, ih (fun y hy => h y (by simp [hy]))]

theorem exists_index {α : Type} (le : α → α → Bool) (l : List α) : ∃ idx, byIndex idx l = l.mergeSort le := by
  refine ⟨(l.zipIdx.mergeSort (fun x y => le x.1 y.1)).map Prod.snd, ?_⟩
  have hp := List.mergeSort_perm l.zipIdx (fun x y => le x.1 y.1)
  have h1 : (l.zipIdx.map Prod.snd) = List.range l.length := by
    rw [List.zipIdx_map_snd, List.range_eq_range']
  have h2 : ((l.zipIdx.mergeSort (fun x y => le x.1 y.1)).map Prod.snd).Perm (List.range l.length) := by
    rw [← h1]; exact hp.map _
  unfold byIndex
  rw [if_pos h2, List.filterMap_map]
  have h3 : l.mergeSort le = (l.zipIdx.mergeSort (fun x y => le x.1 y.1)).map Prod.fst := by
    rw [List.map_mergeSort (s := le) (fun a _ b _ => rfl), List.zipIdx_map_fst]
  rw [h3]
  exact filterMap_some (fun e he => List.mk_mem_zipIdx_iff_getElem?.mp (hp.mem_iff.mp he))

/-- A map order that sorts two given maps. -/
theorem exists_order {V W : Type} (m1 : GMap GoStr V) (m2 : GMap GoStr W) :
    ∃ o : MapOrder, o.ord 0 m1.entries = sortedEntries m1 ∧ o.ord 1 m2.entries = sortedEntries m2 := by
  obtain ⟨i1, h1⟩ := exists_index (fun x y => strLe x.1 y.1) m1.entries
  obtain ⟨i2, h2⟩ := exists_index (fun x y => strLe x.1 y.1) m2.entries
  exact ⟨⟨fun n l => byIndex (if n = 0 then i1 else i2) l, fun n l => byIndex_perm _ l⟩, h1, h2⟩

/-- **C118**, the rest of the model: what is read from the text is what `TBatch.json` and `TSub.json` say, for the order in which the keys stand in
the text. -/
theorem C118_model (m : WMsg) : ∃ o, m.reread = throughJson o m := by
  cases m with
  | batch b =>
    obtain ⟨o, h1, h2⟩ := exists_order b.values b.batches
    refine ⟨o, ?_⟩
    simp only [WMsg.reread, throughJson, TBatch.json, jsonMap, h1, h2]
    rfl
  | sub s =>
    obtain ⟨o, h1, _⟩ := exists_order s.values (GMap.empty : GMap GoStr Unit)
    refine ⟨o, ?_⟩
    simp only [WMsg.reread, throughJson, TSub.json, jsonMap, h1]
    rfl
  | ready => exact ⟨MapOrder.plain, rfl⟩
  | reorg n h => exact ⟨MapOrder.plain, rfl⟩
  | hollow => exact ⟨MapOrder.plain, rfl⟩
  | unknown => exact ⟨MapOrder.plain, rfl⟩

/-! ## Sequences of messages -/

/-- What arrives: an empty message, or the notification of a message written in one way or another. -/
inductive Spec.Arrives (subid : Nat) : List WMsg → List Bytes → Prop
  | nil : Arrives subid [] []
  | ping {ms bs} : Arrives subid ms bs → Arrives subid ms ([] :: bs)
  | note {m ms bs t} (w : JOpt) : m.text w = some t → InRange m → Arrives subid ms bs → Arrives subid (m :: ms) (noteText subid t :: bs)

theorem noteText_ne_nil (subid : Nat) (t : Bytes) : noteText subid t ≠ [] := by
  simp [noteText, objText]

/-- **C118**, a connection: reading the bytes of any sequence of messages, with any empty messages in between, is reading the messages. -/
theorem C118_connection_partial {subid : Nat} (hs : subid < 2 ^ 64) {ms : List WMsg} {bs : List Bytes} (h : Arrives subid ms bs) (o : Nat → MapOrder) :
    ∃ o' : Nat → MapOrder, ∀ (c : WConn) (n : JNote), WConn.bytes o subid c n bs = some (c.run o' (ms.map WMsg.reread)) := by
  induction h generalizing o with
  | nil => exact ⟨o, fun c n => rfl⟩
  | ping _ ih =>
    obtain ⟨o', ho⟩ := ih (fun k => o (k + 1))
    refine ⟨o', fun c n => ?_⟩
    unfold WConn.bytes
    rw [if_pos rfl]
    exact ho c n
  | note w ht hr _ ih =>
    rename_i m ms bs t _
    obtain ⟨o', ho⟩ := ih (fun k => o (k + 1))
    refine ⟨fun k => if k = 0 then o 0 else o' (k - 1), fun c n => ?_⟩
    obtain ⟨i, h1, h2⟩ := C118_text_partial w hs ht hr n
    unfold WConn.bytes
    rw [if_neg (noteText_ne_nil _ _), h1]
    simp only [h2, List.map_cons]
    unfold WConn.run
    simp only [if_true]
    cases c.step (o 0) m.reread with
    | error f => rfl
    | ok d => exact ho d _

/-! ## Whole blocks -/

theorem reread_ids (b : TBatch) (hu : ∀ k ∈ b.batches.keys, Utf8 k) : ((reread b.batches).entries.map Prod.snd).Perm (idsOf b) := by
  rw [reread_entries hu]
  exact (sorted_perm _).map _

theorem foldl_insert_mem {V : Type} (l : List (GoStr × V)) (acc : GMap GoStr V) {e : GoStr × V}
    (he : e ∈ (l.foldl (fun acc e => acc.insert (jsonString e.1) e.2) acc).entries) :
    e.2 ∈ l.map Prod.snd ∨ e ∈ acc.entries := by
  induction l generalizing acc with
  | nil => exact .inr he
  | cons x l ih =>
    rcases ih _ he with h | h
    · exact .inl (by simp only [List.map_cons, List.mem_cons]; exact .inr h)
    · have h' := (GMap.get?_eq_some_iff _).mpr h
      rw [GMap.get?_insert] at h'
      split at h'
      · injection h' with h'
        exact .inl (by simp [h'])
      · exact .inr ((GMap.get?_eq_some_iff _).mp h')

/-- Reading cannot add ids. -/
theorem reread_ids_sub {V : Type} (m : GMap GoStr V) {x : V} (h : x ∈ (reread m).entries.map Prod.snd) : x ∈ m.entries.map Prod.snd := by
  obtain ⟨e, he, rfl⟩ := List.mem_map.mp h
  rcases foldl_insert_mem _ _ he with h | h
  · exact ((sorted_perm m).map Prod.snd).mem_iff.mp h
  · simp [GMap.empty] at h

/-- The messages of a block as the producer sends them. -/
def Spec.sentBatch (o : MapOrder) (a : BlockArgs) : TBatch := wsBatch o a.number a.hash a.parentHash a.weight a.updates a.deletes a.batches

/-- The sub-batch messages of a block as the producer sends them. -/
def Spec.sentSub (a : BlockArgs) (subs : Hash → SubArgs) (id : Hash) : TSub := ⟨a.hash, id, (subs id).updates, (subs id).deletes⟩

/-- The batch after writing and reading. -/
def TBatch.reread (b : TBatch) : TBatch :=
  { b with values := Verif.reread b.values, deletes := b.deletes.map jsonString, batches := Verif.reread b.batches }

/-- The sub-batch after writing and reading. -/
def TSub.reread (s : TSub) : TSub := { s with values := Verif.reread s.values, deletes := s.deletes.map jsonString }

theorem elsewhere_reread {b : TBatch} (hu : ∀ k ∈ b.batches.keys, Utf8 k) {m : WMsg} (h : Elsewhere b m) : Elsewhere b.reread m.reread := by
  have hids : ∀ id, id ∈ idsOf b.reread ↔ id ∈ idsOf b := fun id => (reread_ids b hu).mem_iff
  cases m with
  | hollow => cases h
  | unknown => trivial
  | ready => trivial
  | reorg n h => trivial
  | batch x => exact ⟨h.1, fun id hid => by rw [hids]; exact h.2 id (reread_ids_sub x.batches hid)⟩
  | sub s => exact ⟨h.1, by rw [hids]; exact h.2⟩

theorem eachOnce_reread {b : TBatch} {subs : Hash → TSub} (hu : ∀ k ∈ b.batches.keys, Utf8 k) {ms : List WMsg} (h : EachOnce b subs ms) :
    EachOnce b.reread (fun id => (subs id).reread) (ms.map WMsg.reread) := by
  obtain ⟨sel, hp, hw⟩ := h
  refine ⟨sel.map WMsg.reread, ?_, ?_⟩
  · have h1 := hp.map WMsg.reread
    rw [List.map_cons, List.map_map] at h1
    refine h1.trans (List.Perm.cons _ ?_)
    exact ((reread_ids b hu).symm.map _)
  · clear hp
    induction hw with
    | nil => exact .nil
    | take _ ih => exact .take ih
    | skip he _ ih => exact .skip (elsewhere_reread hu he) ih

theorem sent_form {a : BlockArgs} {subs : Hash → SubArgs} (ht : Textual a subs) (hn : InInt64 a.number) (hd : (a.batches.entries.map Prod.snd).Nodup)
    (hag : ∀ k v w, WsValue a subs k v → WsValue a subs k w → v = w) (o : MapOrder) :
    WellParted (sentBatch o a).reread (fun id => (sentSub a subs id).reread) ∧
    PartsAgree (sentBatch o a).reread (fun id => (sentSub a subs id).reread) ∧
    ∀ pb, Assembled (sentBatch o a).reread (fun id => (sentSub a subs id).reread) pb → WsExact a subs pb := by
  have hp := o.perm 0 a.deletes.keys
  have e3 : (sentBatch o a).reread.deletes = o.ord 0 a.deletes.keys := map_jsonString (fun k hk => ht.deletes k (hp.mem_iff.mp hk))
  have hperm : (idsOf (sentBatch o a).reread).Perm (a.batches.entries.map Prod.snd) := reread_ids (sentBatch o a) ht.paths
  have hid : ∀ id, id ∈ idsOf (sentBatch o a).reread ↔ ∃ path, a.batches.get? path = some id := by
    intro id
    rw [hperm.mem_iff, List.mem_map]
    constructor
    · rintro ⟨⟨p, x⟩, hm, rfl⟩; exact ⟨p, (GMap.get?_eq_some_iff _).mpr hm⟩
    · rintro ⟨p, hm⟩; exact ⟨(p, id), (GMap.get?_eq_some_iff _).mp hm, rfl⟩
  have e2 : ∀ k, (sentBatch o a).reread.values.get? k = a.updates.get? k := fun k => get?_reread ht.values k
  have e4 : ∀ id ∈ idsOf (sentBatch o a).reread, ∀ k, (sentSub a subs id).reread.values.get? k = (subs id).updates.get? k := by
    intro id hmem k
    obtain ⟨p, hp⟩ := (hid id).mp hmem
    exact get?_reread (ht.subValues p id hp) k
  have e5 : ∀ id ∈ idsOf (sentBatch o a).reread, (sentSub a subs id).reread.deletes = (subs id).deletes := by
    intro id hmem
    obtain ⟨p, hp⟩ := (hid id).mp hmem
    exact map_jsonString (ht.subDeletes p id hp)
  have hv : ∀ k v, PartValue (sentBatch o a).reread (fun id => (sentSub a subs id).reread) k v ↔ WsValue a subs k v := by
    intro k v
    unfold PartValue WsValue
    rw [e2]
    refine or_congr Iff.rfl ⟨?_, ?_⟩
    · rintro ⟨id, hm, h⟩
      rw [e4 id hm] at h
      obtain ⟨p, hp⟩ := (hid id).mp hm
      exact ⟨p, id, hp, h⟩
    · rintro ⟨p, id, hp, h⟩
      have hm := (hid id).mpr ⟨p, hp⟩
      exact ⟨id, hm, by rw [e4 id hm]; exact h⟩
  have hdl : ∀ k, PartDelete (sentBatch o a).reread (fun id => (sentSub a subs id).reread) k ↔ WsDelete a subs k := by
    intro k
    unfold PartDelete WsDelete
    rw [e3, hp.mem_iff]
    refine or_congr Iff.rfl ⟨?_, ?_⟩
    · rintro ⟨id, hm, h⟩
      rw [e5 id hm] at h
      obtain ⟨p, hp⟩ := (hid id).mp hm
      exact ⟨p, id, hp, h⟩
    · rintro ⟨p, id, hp, h⟩
      have hm := (hid id).mpr ⟨p, hp⟩
      exact ⟨id, hm, by rw [e5 id hm]; exact h⟩
  refine ⟨⟨hperm.nodup_iff.mpr hd, fun _ _ => rfl, fun _ _ => rfl⟩, fun k v w h1 h2 => hag k v w ((hv k v).mp h1) ((hv k w).mp h2), fun pb r4 => ?_⟩
  refine ⟨?_, r4.weight, r4.hash, r4.parent, fun k v => (r4.values k v).trans (hv k v), fun k => (r4.deletes k).trans (hdl k)⟩
  rw [r4.number]
  exact ofUint64_wireUint64 hn

/-- **C118**, a block: a block whose messages arrive as bytes, once each and in any order among messages that have nothing to do with it, is handed
on exactly once and with the contents given to the producer, provided keys, deletes and prefixes are UTF-8. -/
theorem C118_block_partial {a : BlockArgs} {subs : Hash → SubArgs} (ht : Textual a subs) (hn : InInt64 a.number) (hd : (a.batches.entries.map Prod.snd).Nodup)
    (hag : ∀ k v w, WsValue a subs k v → WsValue a subs k w → v = w) (o : MapOrder) {ms : List WMsg}
    (h : EachOnce (sentBatch o a) (sentSub a subs) ms) {subid : Nat} (hs : subid < 2 ^ 64) {bs : List Bytes} (hb : Arrives subid ms bs)
    (c : WConn) (mo : Nat → MapOrder) (n : JNote) :
    ∃ d l pb, c.reconnect.bytes mo subid n bs = some (.ok d) ∧ d.out = c.out ++ l ∧ blocksWith a.hash l = [pb] ∧ WsExact a subs pb := by
  obtain ⟨mo', hmo⟩ := C118_connection_partial hs hb mo
  obtain ⟨h1, h2, h3⟩ := sent_form ht hn hd hag o
  obtain ⟨h4, h5⟩ := (eachOnce_reread (b := sentBatch o a) ht.paths h).oneBatch
  obtain ⟨d, l, pb, r1, r2, r3, r4⟩ := C52_partial h1 h2 h4 h5 c mo'
  exact ⟨d, l, pb, by rw [hmo, r1], r2, r3, h3 pb r4⟩

/-! ## Any bytes at all -/

/-- What a message is to the read loop when `n` is left from the messages before. -/
def Spec.FrameFor (subid : Nat) (n : JNote) (b : Bytes) : WFrame → Prop
  | .ping => b = []
  | .junk => b ≠ [] ∧ parseJson b = none
  | .other => b ≠ [] ∧ parseJson b ≠ none ∧ (n.read b).item subid = none
  | .item m => b ≠ [] ∧ parseJson b ≠ none ∧ ∃ i, (n.read b).item subid = some i ∧ i.msg = some m

/-- The frames are those of the first messages. -/
def Spec.FramesFor (subid : Nat) : JNote → List Bytes → List WFrame → Prop
  | _, _, [] => True
  | _, [], _ :: _ => False
  | n, b :: bs, f :: fs => FrameFor subid n b f ∧ FramesFor subid (if b = [] then n else n.read b) bs fs

theorem read_junk {n : JNote} {b : Bytes} (h : parseJson b = none) : n.read b = n := by
  unfold JNote.read
  rw [h]

/-- **C118**, any bytes: whatever arrives, the consumer does what it does in the rest of the model for the frames that the messages are, up to the
message at which it panics (unless it is handed a block without a weight). -/
theorem C118_bytes (o : Nat → MapOrder) (subid : Nat) (c : WConn) (n : JNote) {bs : List Bytes} {r : Except Fault WConn}
    (h : c.bytes o subid n bs = some r) : ∃ fs : List WFrame, FramesFor subid n bs fs ∧ (fs.length = bs.length ∨ ∃ f, r = .error f) ∧
      c.frames o ((n.item subid).bind JItem.msg) fs = r := by
  induction bs generalizing o c n with
  | nil =>
    simp only [WConn.bytes, Option.some.injEq] at h
    exact ⟨[], trivial, .inl rfl, h⟩
  | cons b bs ih =>
    unfold WConn.bytes at h
    split at h
    · rename_i hb
      obtain ⟨fs, h1, h2, h3⟩ := ih _ _ _ h
      exact ⟨.ping :: fs, ⟨hb, by rw [if_pos hb]; exact h1⟩, by simpa using h2, by rw [WConn.frames]; exact h3⟩
    · rename_i hb
      cases hj : parseJson b with
      | none =>
        rw [read_junk hj] at h
        cases hi : n.item subid with
        | none =>
          rw [hi] at h
          obtain ⟨fs, h1, h2, h3⟩ := ih _ _ _ h
          rw [hi] at h3
          exact ⟨.junk :: fs, ⟨⟨hb, hj⟩, by rw [if_neg hb, read_junk hj]; exact h1⟩, by simpa using h2, h3⟩
        | some i =>
          rw [hi] at h
          simp only [] at h
          cases hm : i.msg with
          | none => rw [hm] at h; cases h
          | some m =>
            rw [hm] at h
            simp only [] at h
            simp only [Option.bind_some, hm]
            cases hst : c.step (o 0) m with
            | error f =>
              rw [hst] at h
              simp only [Option.some.injEq] at h
              refine ⟨[.junk], ⟨⟨hb, hj⟩, by unfold FramesFor; trivial⟩, .inr ⟨f, h.symm⟩, ?_⟩
              simp only [WConn.frames, hst]
              exact h
            | ok d =>
              rw [hst] at h
              obtain ⟨fs, h1, h2, h3⟩ := ih _ _ _ h
              rw [hi] at h3
              simp only [Option.bind_some, hm] at h3
              refine ⟨.junk :: fs, ⟨⟨hb, hj⟩, by rw [if_neg hb, read_junk hj]; exact h1⟩, by simpa using h2, ?_⟩
              simp only [WConn.frames, hst]
              exact h3
      | some j =>
        have hj' : parseJson b ≠ none := by rw [hj]; simp
        cases hi : (n.read b).item subid with
        | none =>
          rw [hi] at h
          obtain ⟨fs, h1, h2, h3⟩ := ih _ _ _ h
          rw [hi] at h3
          exact ⟨.other :: fs, ⟨⟨hb, hj', hi⟩, by rw [if_neg hb]; exact h1⟩, by simpa using h2, h3⟩
        | some i =>
          rw [hi] at h
          simp only [] at h
          cases hm : i.msg with
          | none => rw [hm] at h; cases h
          | some m =>
            rw [hm] at h
            simp only [] at h
            cases hst : c.step (o 0) m with
            | error f =>
              rw [hst] at h
              simp only [Option.some.injEq] at h
              refine ⟨[.item m], ⟨⟨hb, hj', i, hi, hm⟩, by unfold FramesFor; trivial⟩, .inr ⟨f, h.symm⟩, ?_⟩
              simp only [WConn.frames, hst]
              exact h
            | ok d =>
              rw [hst] at h
              obtain ⟨fs, h1, h2, h3⟩ := ih _ _ _ h
              rw [hi] at h3
              simp only [Option.bind_some, hm] at h3
              refine ⟨.item m :: fs, ⟨⟨hb, hj', i, hi, hm⟩, by rw [if_neg hb]; exact h1⟩, by simpa using h2, ?_⟩
              simp only [WConn.frames, hst]
              exact h3

theorem text_parses (w : JOpt) {m : WMsg} {t : Bytes} (ht : m.text w = some t) : ∃ j, Parses t j := by
  cases m with
  | hollow => cases ht
  | unknown => cases ht
  | ready =>
    simp only [WMsg.text, Option.some.injEq] at ht
    subst ht
    refine ⟨.obj [(str "type", .str (str "ready"))], Parses.obj (l := [⟨str "type", _, str "type", _⟩]) ?_⟩
    · intro e he
      simp only [List.mem_cons, List.not_mem_nil, or_false] at he
      rcases he with rfl
      exact memOk (by decide +kernel) (by decide +kernel) (Parses.plain (by decide +kernel))
  | reorg num h =>
    simp only [WMsg.text, Option.some.injEq] at ht
    subst ht
    exact ⟨_, parses_typed (ty := "reorg") (name := "batch") (parses_batch Parses.null Parses.null Parses.null num none h Hash.zero)
      (by decide +kernel) (by decide +kernel) (by decide +kernel)⟩
  | batch b =>
    simp only [WMsg.text, Option.some.injEq] at ht
    subst ht
    obtain ⟨dj, hd1, hd2⟩ := parses_deletes w b.deletes
    obtain ⟨bj, hb1, hb2⟩ := parses_batches w b.batches
    exact ⟨_, parses_typed (ty := "batch") (name := "batch") (parses_batch (parses_map w parses_bytes b.values) hd1 hb1 b.number (some b.weight) b.hash b.parentHash)
      (by decide +kernel) (by decide +kernel) (by decide +kernel)⟩
  | sub s =>
    simp only [WMsg.text, Option.some.injEq] at ht
    subst ht
    obtain ⟨dj, hd1, hd2⟩ := parses_deletes w s.deletes
    exact ⟨_, parses_typed (ty := "subbatch") (name := "subbatch") (parses_sub (parses_map w parses_bytes s.values) hd1 s.hash s.batchId)
      (by decide +kernel) (by decide +kernel) (by decide +kernel)⟩

/-- **C118**, other subscriptions: a notification of another subscription is not taken for anything, and messages that are not JSON do not change that. -/
theorem C118_other (w : JOpt) {m : WMsg} {t : Bytes} (ht : m.text w = some t) {subid other : Nat} (hs : other < 2 ^ 64) (hne : other ≠ subid) (n : JNote)
    {junk : Bytes} (hj : parseJson junk = none) :
    (n.read (noteText other t)).item subid = none ∧ ((n.read (noteText other t)).read junk).item subid = none := by
  obtain ⟨j, hp⟩ := text_parses w ht
  rw [two64] at hs
  have : (n.read (noteText other t)).item subid = none := by
    rw [read_note hp hs]
    unfold JNote.item
    rw [if_neg (fun e => hne e.2)]
  exact ⟨this, by rw [read_junk hj]; exact this⟩

/-! ## Weights that do not fit -/

theorem hexDigits_long {f n k : Nat} (h : n < f) (hk : 16 ^ k ≤ n) : k < (hexDigits f n).length := by
  induction f generalizing n k with
  | zero => omega
  | succ f ih =>
    cases k with
    | zero => exact List.length_pos_iff.mpr (hexDigits_ne_nil h)
    | succ k =>
      have h16 : 16 ≤ n := by
        have : 0 < 16 ^ k := Nat.pow_pos (by omega)
        rw [Nat.pow_succ] at hk
        omega
      unfold hexDigits
      rw [if_neg (by omega)]
      have := ih (n := n / 16) (k := k) (by omega) (by rw [Nat.pow_succ] at hk; omega)
      simp only [List.length_append, List.length_cons, List.length_nil]
      omega

theorem putBig_unfit {x : Int} (h : x < 0 ∨ 2 ^ 256 ≤ x) : putBig none (weightJson (some x)) = (some 0, false) := by
  have hn : hexNum 64 (hexBig x) = none := by
    by_cases h0 : x < 0
    · unfold hexBig
      rw [if_pos h0]
      unfold hexNum
      rw [if_neg (by simp)]
      rfl
    · have hx : (16 : Nat) ^ 64 ≤ x.natAbs := by
        have : (16 : Nat) ^ 64 = 2 ^ 256 := by decide +kernel
        rw [this]
        omega
      unfold hexBig
      rw [if_neg h0]
      unfold hexNum hexNumber
      rw [if_neg (by simp)]
      simp only [strip0x]
      rw [if_pos (by decide)]
      simp only []
      rw [if_neg (hexDigits_ne_nil (Nat.lt_succ_self _))]
      split
      · rfl
      · rw [if_pos (hexDigits_long (Nat.lt_succ_self _) hx)]
  simp only [weightJson, putBig, hn]
  rfl

/-- What is left of a block. -/
def Spec.stump (number : Nat) : TBatch := ⟨number, 0, Hash.zero, Hash.zero, GMap.empty, [], GMap.empty⟩

/-- **C118** refuted, weights: a block whose weight is negative or has more than 256 bits is sent, and the consumer takes it for an empty block of
the same number without hash and parent, which it hands on at once and takes for the place to resume from. -/
theorem C118_weight_refuted (w : JOpt) {subid : Nat} (hs : subid < 2 ^ 64) {b : TBatch} (hn : b.number < 2 ^ 64) (hw : b.weight < 0 ∨ 2 ^ 256 ≤ b.weight) :
    ∃ t, (WMsg.batch b).text w = some t ∧ TakenFor subid (noteText subid t) (.batch (stump b.number)) ∧
      ∀ (c : WConn) (o : MapOrder), ∃ d pb, c.step o (.batch (stump b.number)) = .ok d ∧ d.out = c.out ++ [.block pb] ∧
        pb.number = ofUint64 b.number ∧ pb.hash = Hash.zero ∧ pb.values.size = 0 ∧ pb.deletes.size = 0 ∧ d.lastHash = Hash.zero := by
  refine ⟨_, rfl, fun n => ?_, fun c o => ?_⟩
  · rw [two64] at hs hn
    obtain ⟨dj, hd1, hd2⟩ := parses_deletes w b.deletes
    obtain ⟨bj, hb1, hb2⟩ := parses_batches w b.batches
    have hp := parses_typed (ty := "batch") (name := "batch") (parses_batch (parses_map w parses_bytes b.values) hd1 hb1 b.number (some b.weight) b.hash b.parentHash)
      (by decide +kernel) (by decide +kernel) (by decide +kernel)
    refine ⟨_, item_note hp hs n, ?_⟩
    have h1 : decUint64 (.str (hexNumber b.number)) = some b.number := hexNum_number (by omega) hn
    rw [decItem_batch (b := { JBatch.zero with number := b.number, weight := some 0 }) (go := false) (by decide +kernel) (by
      rw [putMembers_go (y := { JBatch.zero with number := b.number }) (by rw [member_number, h1]; rfl),
        putMembers_stop (y := { JBatch.zero with number := b.number, weight := some 0 }) (by
          rw [member_weight]
          have : putBig ({ JBatch.zero with number := b.number } : JBatch).weight (weightJson (some b.weight)) = (some 0, false) := putBig_unfit hw
          simp only [this])])]
    unfold JItem.msg
    dsimp only
    rw [if_neg (by decide +kernel), if_neg (by decide +kernel), if_pos rfl]
    rfl
  · have e : o.ord 2 (stump b.number).batches.entries = [] := List.length_eq_zero_iff.mp (o.perm 2 (GMap.empty : GMap GoStr Hash).entries).length_eq
    refine ⟨_, (stump b.number).toPending, rfl, ?_⟩
    rw [WConn.onBatch_eq c o _ _ rfl, e]
    exact ⟨rfl, rfl, rfl, rfl, rfl, rfl⟩

/-! ## Members that are not known -/

/-- **C118**, other members: a member of a batch that is not one of the seven changes nothing, wherever it stands and whatever its value. -/
theorem C118_extra_member {k : GoStr} (hk : ∀ name ∈ ["number", "weight", "hash", "parent", "values", "deletes", "batches"], isField name k = false) (j : Json)
    (b : JBatch) (l1 l2 : List (GoStr × Json)) : putMembers JBatch.member b (l1 ++ (k, j) :: l2) = putMembers JBatch.member b (l1 ++ l2) := by
  have h1 : ∀ b : JBatch, b.member k j = (b, true) := by
    intro b
    unfold JBatch.member
    simp only [hk "number" (by simp), hk "weight" (by simp), hk "hash" (by simp), hk "parent" (by simp), hk "values" (by simp), hk "deletes" (by simp),
      hk "batches" (by simp), Bool.false_eq_true, if_false]
  induction l1 generalizing b with
  | nil => rw [List.nil_append, putMembers_go (h1 b)]; rfl
  | cons e l1 ih =>
    obtain ⟨k', j'⟩ := e
    simp only [List.cons_append]
    cases hm : b.member k' j' with
    | mk y go =>
      cases go with
      | true => rw [putMembers_go hm, putMembers_go hm]; exact ih y
      | false => rw [putMembers_stop hm, putMembers_stop hm]

theorem putMembers_skip {α : Type} {f : α → GoStr → Json → Put α} {k : GoStr} {j : Json} (h : ∀ x, f x k j = (x, true)) (x : α) (l1 l2 : List (GoStr × Json)) :
    putMembers f x (l1 ++ (k, j) :: l2) = putMembers f x (l1 ++ l2) := by
  induction l1 generalizing x with
  | nil => rw [List.nil_append, putMembers_go (h x)]; rfl
  | cons e l1 ih =>
    obtain ⟨k', j'⟩ := e
    simp only [List.cons_append]
    cases hm : f x k' j' with
    | mk y go =>
      cases go with
      | true => rw [putMembers_go hm, putMembers_go hm]; exact ih y
      | false => rw [putMembers_stop hm, putMembers_stop hm]

/-- **C118**, other members of a notification: one that is not one of the three, or params that are not an object, change nothing, and neither does a member of the params that is not one of the two,
wherever they stand. -/
theorem C118_note_extra {k : GoStr} {j : Json} (n : JNote) (l1 l2 : List (GoStr × Json)) :
    ((∀ name ∈ ["jsonrpc", "method", "params"], isField name k = false) ∨ (k = str "params" ∧ ∀ l, j ≠ .obj l) →
      putMembers JNote.member n (l1 ++ (k, j) :: l2) = putMembers JNote.member n (l1 ++ l2)) ∧
    ((∀ name ∈ ["subscription", "result"], isField name k = false) → putMembers JNote.param n (l1 ++ (k, j) :: l2) = putMembers JNote.param n (l1 ++ l2)) := by
  constructor
  · intro h
    refine putMembers_skip (fun x => ?_) n l1 l2
    unfold JNote.member
    rcases h with h | ⟨rfl, h⟩
    · simp only [h "jsonrpc" (by simp), h "method" (by simp), h "params" (by simp), Bool.false_eq_true, if_false]
    · have h1 : isField "jsonrpc" (str "params") = false := by decide +kernel
      have h2 : isField "method" (str "params") = false := by decide +kernel
      have h3 : isField "params" (str "params") = true := by decide +kernel
      simp only [h1, h2, h3, Bool.false_eq_true, if_false, if_true]
  · intro h
    refine putMembers_skip (fun x => ?_) n l1 l2
    unfold JNote.param
    simp only [h "subscription" (by simp), h "result" (by simp), Bool.false_eq_true, if_false]

/-- Values of the wrong kind for a map or a list: neither null nor, for the maps, an object, nor, for the list, an array. -/
def Spec.WrongKind (k : GoStr) (j : Json) : Prop :=
  ((k = str "values" ∨ k = str "batches") ∧ j ≠ .null ∧ ∀ l, j ≠ .obj l) ∨ (k = str "deletes" ∧ j ≠ .null ∧ ∀ l, j ≠ .arr l)

/-- **C118**, wrong kinds: a number, a string or the like where a batch has a map or a list changes nothing, and reading goes on. -/
theorem C118_wrong_kind {k : GoStr} {j : Json} (h : WrongKind k j) (b : JBatch) (l1 l2 : List (GoStr × Json)) :
    putMembers JBatch.member b (l1 ++ (k, j) :: l2) = putMembers JBatch.member b (l1 ++ l2) := by
  have hm : ∀ {V : Type} (d : Json → Option V) (old : GMap GoStr V), j ≠ .null → (∀ l, j ≠ .obj l) → putMap d old j = (old, true) := by
    intro V d old h1 h2
    cases j with
    | null => exact absurd rfl h1
    | obj l => exact absurd rfl (h2 l)
    | _ => rfl
  have h1 : ∀ b : JBatch, b.member k j = (b, true) := by
    intro b
    rcases h with ⟨rfl | rfl, h1, h2⟩ | ⟨rfl, h1, h2⟩
    · rw [member_values, hm _ _ h1 h2]
    · rw [member_batches, hm _ _ h1 h2]
    · rw [member_deletes]
      cases j with
      | null => exact absurd rfl h1
      | arr l => exact absurd rfl (h2 l)
      | _ => rfl
  induction l1 generalizing b with
  | nil => rw [List.nil_append, putMembers_go (h1 b)]; rfl
  | cons e l1 ih =>
    obtain ⟨k', j'⟩ := e
    simp only [List.cons_append]
    cases hm : b.member k' j' with
    | mk y go =>
      cases go with
      | true => rw [putMembers_go hm, putMembers_go hm]; exact ih y
      | false => rw [putMembers_stop hm, putMembers_stop hm]

/-- **C118**, unreadable members: a number, hash or parent that is no string ends the reading of a batch: what came before is kept, what comes after is lost. -/
theorem C118_unreadable {k : GoStr} {j : Json} (hk : k ∈ [str "number", str "hash", str "parent"]) (hj : ∀ raw, j ≠ .str raw) (b : JBatch)
    (l1 l2 : List (GoStr × Json)) : (putMembers JBatch.member b (l1 ++ (k, j) :: l2)).1 = (putMembers JBatch.member b l1).1 := by
  have hn : decUint64 j = none := by cases j <;> first | rfl | exact absurd rfl (hj _)
  have hh : decHash j = none := by cases j <;> first | rfl | exact absurd rfl (hj _)
  have h1 : ∀ b : JBatch, b.member k j = (b, false) := by
    intro b
    simp only [List.mem_cons, List.not_mem_nil, or_false] at hk
    rcases hk with rfl | rfl | rfl
    · rw [member_number, hn]; rfl
    · rw [member_hash, hh]; rfl
    · rw [member_parent, hh]; rfl
  induction l1 generalizing b with
  | nil => rw [List.nil_append, putMembers_stop (h1 b)]; rfl
  | cons e l1 ih =>
    obtain ⟨k', j'⟩ := e
    simp only [List.cons_append]
    cases hm : b.member k' j' with
    | mk y go =>
      cases go with
      | true => rw [putMembers_go hm, putMembers_go hm]; exact ih y
      | false => rw [putMembers_stop hm, putMembers_stop hm]

/-- A member of a batch that ends its reading: a number, hash or parent that is no string, a weight that is neither a string nor null, and a map with an entry that is not of
the kind of its entries. -/
def Spec.EndsBatch (k : GoStr) (j : Json) : Prop :=
  (k ∈ [str "number", str "hash", str "parent"] ∧ ∀ raw, j ≠ .str raw) ∨ (k = str "weight" ∧ j ≠ .null ∧ ∀ raw, j ≠ .str raw) ∨
  (k = str "values" ∧ ∃ l e, j = .obj l ∧ e ∈ l ∧ ∀ raw, e.2 ≠ .str raw) ∨ (k = str "batches" ∧ ∃ l e, j = .obj l ∧ e ∈ l ∧ ∀ raw, e.2 ≠ .str raw)

theorem putEntries_stops {V : Type} {d : Json → Option V} (hd : ∀ j, (∀ raw, j ≠ .str raw) → d j = none) {l : List (GoStr × Json)} {e : GoStr × Json}
    (he : e ∈ l) (hj : ∀ raw, e.2 ≠ .str raw) (m : GMap GoStr V) : (putEntries d m l).2 = false := by
  induction l generalizing m with
  | nil => cases he
  | cons x l ih =>
    obtain ⟨k, j⟩ := x
    simp only [putEntries]
    cases hx : d j with
    | none => rfl
    | some v =>
      rcases List.mem_cons.mp he with rfl | h
      · rw [hd _ hj] at hx; cases hx
      · exact ih h _

/-- **C118**, members that end the reading: nothing after them is looked at. -/
theorem C118_ends {k : GoStr} {j : Json} (h : EndsBatch k j) (b : JBatch) (l1 l2 : List (GoStr × Json)) :
    putMembers JBatch.member b (l1 ++ (k, j) :: l2) = putMembers JBatch.member b (l1 ++ [(k, j)]) ∧ (putMembers JBatch.member b (l1 ++ (k, j) :: l2)).2 = false := by
  have dh : ∀ j : Json, (∀ raw, j ≠ .str raw) → decHash j = none := by intro j hj; cases j <;> first | rfl | exact absurd rfl (hj _)
  have db : ∀ j : Json, (∀ raw, j ≠ .str raw) → decBytes j = none := by intro j hj; cases j <;> first | rfl | exact absurd rfl (hj _)
  have du : ∀ j : Json, (∀ raw, j ≠ .str raw) → decUint64 j = none := by intro j hj; cases j <;> first | rfl | exact absurd rfl (hj _)
  have h1 : ∀ b : JBatch, (b.member k j).2 = false := by
    intro b
    rcases h with ⟨hk, hj⟩ | ⟨rfl, hn, hj⟩ | ⟨rfl, l, e, rfl, he, hj⟩ | ⟨rfl, l, e, rfl, he, hj⟩
    · simp only [List.mem_cons, List.not_mem_nil, or_false] at hk
      rcases hk with rfl | rfl | rfl
      · rw [member_number, du j hj]; rfl
      · rw [member_hash, dh j hj]; rfl
      · rw [member_parent, dh j hj]; rfl
    · rw [member_weight]
      cases j with
      | null => exact absurd rfl hn
      | str raw => exact absurd rfl (hj raw)
      | _ => rfl
    · rw [member_values]; exact putEntries_stops db he hj _
    · rw [member_batches]; exact putEntries_stops dh he hj _
  have h2 : ∀ (b : JBatch) l, putMembers JBatch.member b ((k, j) :: l) = ((b.member k j).1, false) := by
    intro b l
    exact putMembers_stop (by rw [← h1 b]) l
  induction l1 generalizing b with
  | nil => rw [List.nil_append, List.nil_append, h2, h2]; exact ⟨rfl, rfl⟩
  | cons e l1 ih =>
    obtain ⟨k', j'⟩ := e
    simp only [List.cons_append]
    cases hm : b.member k' j' with
    | mk y go =>
      cases go with
      | true => rw [putMembers_go hm, putMembers_go hm]; exact ih y
      | false => rw [putMembers_stop hm, putMembers_stop hm]; exact ⟨rfl, rfl⟩

/-- **C118**, a batch or sub-batch that is no object: an empty one is there from then on, unless one was there already, and the members after it are read. -/
theorem C118_no_object {j : Json} (hn : j ≠ .null) (ho : ∀ l, j ≠ .obj l) (i : JItem) (l : List (GoStr × Json)) :
    putMembers JItem.member i ((str "batch", j) :: l) = putMembers JItem.member { i with batch := some (i.batch.getD JBatch.zero) } l ∧
    putMembers JItem.member i ((str "subbatch", j) :: l) = putMembers JItem.member { i with sub := some (i.sub.getD TSub.zero) } l := by
  constructor
  · apply putMembers_go
    rw [item_batch]
    cases j with
    | null => exact absurd rfl hn
    | obj l => exact absurd rfl (ho l)
    | _ => rfl
  · apply putMembers_go
    rw [item_sub]
    cases j with
    | null => exact absurd rfl hn
    | obj l => exact absurd rfl (ho l)
    | _ => rfl

theorem putMembers_append {α : Type} {f : α → GoStr → Json → Put α} {x : α} {l1 : List (GoStr × Json)} (h : (putMembers f x l1).2 = true) (l2 : List (GoStr × Json)) :
    putMembers f x (l1 ++ l2) = putMembers f (putMembers f x l1).1 l2 := by
  induction l1 generalizing x with
  | nil => rfl
  | cons e l1 ih =>
    obtain ⟨k, j⟩ := e
    cases hm : f x k j with
    | mk y go =>
      cases go with
      | true => rw [putMembers_go hm] at h ⊢; rw [List.cons_append, putMembers_go hm]; exact ih h
      | false => rw [putMembers_stop hm] at h; simp at h

/-- **C118**, an object that is there twice: if nothing in the first ends the reading, the two are read as one object with the members of both; a
`null` in between drops the first. -/
theorem C118_twice (i : JItem) (l1 l2 l : List (GoStr × Json)) :
    ((putMembers JBatch.member (i.batch.getD JBatch.zero) l1).2 = true →
      putMembers JItem.member i ((str "batch", .obj l1) :: (str "batch", .obj l2) :: l) = putMembers JItem.member i ((str "batch", .obj (l1 ++ l2)) :: l) ∧
      putMembers JItem.member i ((str "batch", .obj l1) :: (str "batch", .null) :: l) = putMembers JItem.member { i with batch := none } l) ∧
    ((putMembers TSub.member (i.sub.getD TSub.zero) l1).2 = true →
      putMembers JItem.member i ((str "subbatch", .obj l1) :: (str "subbatch", .obj l2) :: l) = putMembers JItem.member i ((str "subbatch", .obj (l1 ++ l2)) :: l) ∧
      putMembers JItem.member i ((str "subbatch", .obj l1) :: (str "subbatch", .null) :: l) = putMembers JItem.member { i with sub := none } l) := by
  refine ⟨fun h => ?_, fun h => ?_⟩
  · have h1 : i.member (str "batch") (.obj l1) = ({ i with batch := some (putMembers JBatch.member (i.batch.getD JBatch.zero) l1).1 }, true) := by
      rw [item_batch]; simp [putPtr, h]
    rw [putMembers_go h1, putMembers_go h1]
    refine ⟨?_, putMembers_go (by rw [item_batch]; rfl) ..⟩
    rw [putMembers, putMembers, item_batch, item_batch]
    simp only [putPtr, Option.getD_some]
    rw [putMembers_append h]
  · have h1 : i.member (str "subbatch") (.obj l1) = ({ i with sub := some (putMembers TSub.member (i.sub.getD TSub.zero) l1).1 }, true) := by
      rw [item_sub]; simp [putPtr, h]
    rw [putMembers_go h1, putMembers_go h1]
    refine ⟨?_, putMembers_go (by rw [item_sub]; rfl) ..⟩
    rw [putMembers, putMembers, item_sub, item_sub]
    simp only [putPtr, Option.getD_some]
    rw [putMembers_append h]

/-- A number in one object and a hash in the next. -/
example : (putMembers JBatch.member (JItem.zero.batch.getD JBatch.zero) [(str "number", .str (str "0x5"))]).2 = true ∧
    ((putMembers JItem.member JItem.zero [(str "batch", .obj [(str "number", .str (str "0x5"))]), (str "batch", .obj [])]).1.batch.map (·.number)) = some 5 := by
  decide +kernel

/-- A value that is a number among the values ends the reading of a batch, before its batches. -/
example : EndsBatch (str "values") (.obj [(str "a", .str (str "0x01")), (str "b", .num (str "5"))]) ∧
    (putMembers JBatch.member JBatch.zero [(str "values", .obj [(str "a", .str (str "0x01")), (str "b", .num (str "5"))]),
      (str "number", .str (str "0x5"))]).1.number = 0 ∧ EndsBatch (str "weight") (.num (str "5")) :=
  ⟨.inr (.inr (.inl ⟨rfl, _, (str "b", .num (str "5")), rfl, by simp, fun _ e => by cases e⟩)), by decide +kernel, .inr (.inl ⟨rfl, (fun e => by cases e), fun _ e => by cases e⟩)⟩

/-! ## Notifications without their object -/

/-- Notifications that announce a block, a sub-batch or a reorg and do not contain it: the member is missing or null. -/
def Spec.hollows : List String :=
  ["{\"type\":\"batch\"}", "{\"type\":\"subbatch\"}", "{\"type\":\"reorg\"}", "{\"type\":\"batch\",\"batch\":null}",
    "{\"type\":\"subbatch\",\"subbatch\":null}", "{\"type\":\"reorg\",\"batch\":null}"]

theorem parses_type {ty : String} (hc : ∀ c ∈ str ty, PlainByte c) :
    Parses (objText [(str "type", quoted (str ty))]) (.obj [(str "type", .str (str ty))]) := by
  refine Parses.obj (l := [⟨str "type", _, str "type", _⟩]) ?_
  intro e he
  simp only [List.mem_singleton] at he
  subst he
  exact memOk (by decide +kernel) (by decide +kernel) (Parses.plain hc)

/-- **C118** refuted, hollow notifications: one that names a block, a sub-batch or a reorg and does not contain it makes the consumer panic, in every state. -/
theorem C118_hollow_refuted {subid : Nat} (hs : subid < 2 ^ 64) {t : String} (ht : t ∈ hollows) :
    TakenFor subid (noteText subid (str t)) .hollow ∧ ∀ (c : WConn) (o : MapOrder), c.step o .hollow = .error .panic := by
  refine ⟨fun n => ?_, fun _ _ => rfl⟩
  rw [two64] at hs
  have bare : ∀ ty : String, (∀ c ∈ str ty, PlainByte c) → unquote (str ty) = some (str ty) →
      (⟨str ty, none, none⟩ : JItem).msg = some .hollow → ∃ i, (n.read (noteText subid (objText [(str "type", quoted (str ty))]))).item subid = some i ∧
        i.msg = some .hollow := by
    intro ty hc hu hm
    refine ⟨_, item_note (parses_type hc) hs n, ?_⟩
    have : decItem (some (.obj [(str "type", .str (str ty))])) = ⟨str ty, none, none⟩ := by
      simp only [decItem]
      rw [putMembers_go (y := ⟨str ty, none, none⟩) (by rw [item_type]; simp only [putString, hu]; rfl)]
      rfl
    rw [this]; exact hm
  have null : ∀ ty name : String, (∀ c ∈ str ty, PlainByte c) → (∀ c ∈ str name, PlainByte c) → unquote (str ty) = some (str ty) →
      unquote (str name) = some (str name) → (∀ i : JItem, i.batch = none → i.sub = none → i.member (str name) .null = (i, true)) →
      (⟨str ty, none, none⟩ : JItem).msg = some .hollow →
      ∃ i, (n.read (noteText subid (objText [(str "type", quoted (str ty)), (str name, nullText)]))).item subid = some i ∧ i.msg = some .hollow := by
    intro ty name hc hc' hu hu' hmem hm
    refine ⟨_, item_note (parses_typed Parses.null hc hc' hu') hs n, ?_⟩
    have : decItem (some (.obj [(str "type", .str (str ty)), (str name, .null)])) = ⟨str ty, none, none⟩ := by
      simp only [decItem]
      rw [putMembers_go (y := ⟨str ty, none, none⟩) (by rw [item_type]; simp only [putString, hu]; rfl),
        putMembers_go (y := ⟨str ty, none, none⟩) (hmem _ rfl rfl)]
      rfl
    rw [this]; exact hm
  have nb : ∀ i : JItem, i.batch = none → i.sub = none → i.member (str "batch") .null = (i, true) := by
    intro i h1 h2; obtain ⟨a, b, c⟩ := i; simp only at h1 h2; subst h1 h2; rw [item_batch]; rfl
  have ns : ∀ i : JItem, i.batch = none → i.sub = none → i.member (str "subbatch") .null = (i, true) := by
    intro i h1 h2; obtain ⟨a, b, c⟩ := i; simp only at h1 h2; subst h1 h2; rw [item_sub]; rfl
  simp only [hollows, List.mem_cons, List.not_mem_nil, or_false] at ht
  rcases ht with rfl | rfl | rfl | rfl | rfl | rfl
  · have e : str "{\"type\":\"batch\"}" = objText [(str "type", quoted (str "batch"))] := by decide +kernel
    rw [e]; exact bare "batch" (by decide +kernel) (by decide +kernel) rfl
  · have e : str "{\"type\":\"subbatch\"}" = objText [(str "type", quoted (str "subbatch"))] := by decide +kernel
    rw [e]; exact bare "subbatch" (by decide +kernel) (by decide +kernel) rfl
  · have e : str "{\"type\":\"reorg\"}" = objText [(str "type", quoted (str "reorg"))] := by decide +kernel
    rw [e]; exact bare "reorg" (by decide +kernel) (by decide +kernel) rfl
  · have e : str "{\"type\":\"batch\",\"batch\":null}" = objText [(str "type", quoted (str "batch")), (str "batch", nullText)] := by decide +kernel
    rw [e]; exact null "batch" "batch" (by decide +kernel) (by decide +kernel) (by decide +kernel) (by decide +kernel) nb rfl
  · have e : str "{\"type\":\"subbatch\",\"subbatch\":null}" = objText [(str "type", quoted (str "subbatch")), (str "subbatch", nullText)] := by decide +kernel
    rw [e]; exact null "subbatch" "subbatch" (by decide +kernel) (by decide +kernel) (by decide +kernel) (by decide +kernel) ns rfl
  · have e : str "{\"type\":\"reorg\",\"batch\":null}" = objText [(str "type", quoted (str "reorg")), (str "batch", nullText)] := by decide +kernel
    rw [e]; exact null "reorg" "batch" (by decide +kernel) (by decide +kernel) (by decide +kernel) (by decide +kernel) nb rfl

/-! ## Cases -/

/-- A block with a key that needs escaping, one outside ASCII, a delete and a sub-batch. -/
def exJBatch : TBatch :=
  ⟨258, 7, exHash 1, exHash 0, GMap.ofList [(str "z\"<", [0, 255]), ([0xC3, 0xA9], [])], [str "d"], GMap.ofList [(str "p/", exWId 0)]⟩

/-- Its text, as a Go program before version 1.22 writes it. -/
def exJText : Bytes := str "{\"type\":\"batch\",\"batch\":{\"number\":\"0x102\",\"weight\":\"0x7\"," ++
    str "\"hash\":\"0x0107070707070707070707070707070707070707070707070707070707070707\"," ++
    str "\"parent\":\"0x0007070707070707070707070707070707070707070707070707070707070707\"," ++
    str "\"values\":{\"z\\\"\\u003c\":\"0x00ff\",\"" ++ [0xC3, 0xA9] ++ str "\":\"0x\"},\"deletes\":[\"d\"]," ++
    str "\"batches\":{\"p/\":\"0x6407070707070707070707070707070707070707070707070707070707070707\"}}}"

example : (WMsg.batch exJBatch).text ⟨false, false, false⟩ = some exJText := by
  have s1 : exJBatch.values.entries.mergeSort (fun x y => strLe x.1 y.1) = exJBatch.values.entries := List.mergeSort_of_pairwise (by decide +kernel)
  have s2 : exJBatch.batches.entries.mergeSort (fun x y => strLe x.1 y.1) = exJBatch.batches.entries := List.mergeSort_of_pairwise (by decide +kernel)
  simp only [WMsg.text, TBatch.text, mapText, s1, s2]
  decide +kernel

theorem exJ_range : InRange (.batch exJBatch) := ⟨by decide, by decide, by decide⟩

theorem exJ_text : AllText (.batch exJBatch) := by
  have k1 : exJBatch.values.keys = [str "z\"<", [0xC3, 0xA9]] := by decide +kernel
  have k2 : exJBatch.batches.keys = [str "p/"] := by decide +kernel
  refine ⟨fun k hk => ?_, fun k hk => ?_, fun k hk => ?_⟩
  · simp only [k1, List.mem_cons, List.not_mem_nil, or_false] at hk
    rcases hk with rfl | rfl
    · exact utf8_ascii (by decide +kernel)
    · exact ⟨['\u00e9'], by decide +kernel⟩
  · simp only [exJBatch, List.mem_singleton] at hk; rw [hk]; exact utf8_ascii (by decide +kernel)
  · simp only [k2, List.mem_singleton] at hk; rw [hk]; exact utf8_ascii (by decide +kernel)

/-- The hypotheses of `C118_text_partial`, `C118_same_partial` and `C118_connection_partial` are met by this block among empty messages, by a text that
is not UTF-8, and by the other kinds of message. -/
example : ∃ bs, Arrives 5 [.ready, .batch exJBatch, .reorg 3 (exHash 1), .sub ⟨exHash 1, exWId 0, GMap.ofList [([255], [1])], []⟩] bs ∧ bs.length = 6 ∧
    AllText (.batch exJBatch) :=
  ⟨_, .note ⟨false, false, false⟩ rfl trivial (.ping (.note ⟨true, false, false⟩ rfl exJ_range (.ping (.note ⟨false, true, false⟩ rfl (show 3 < 2 ^ 64 by decide)
    (.note ⟨false, false, true⟩ rfl trivial .nil))))), rfl, exJ_text⟩

/-- Reading the text of that block by running the parser. -/
example : (match ((JNote.zero.read (noteText 5 exJText)).item 5).bind JItem.msg with
    | some (.batch b) => b.number == 258 && b.weight == 7 && b.hash == exHash 1 && b.parentHash == exHash 0 &&
        b.values.entries == [(str "z\"<", [0, 255]), ([0xC3, 0xA9], [])] && b.deletes == [str "d"] && b.batches.entries == [(str "p/", exWId 0)]
    | _ => false) = true := by decide +kernel

/-- The hypotheses of `C118_block_partial` are met by a block with a sub-batch that arrives before it, with an empty message in between. -/
example : ∃ (a : BlockArgs) (subs : Hash → SubArgs) (ms : List WMsg) (bs : List Bytes), Textual a subs ∧ InInt64 a.number ∧
    (a.batches.entries.map Prod.snd).Nodup ∧ (∀ k v w, WsValue a subs k v → WsValue a subs k w → v = w) ∧
    EachOnce (sentBatch MapOrder.plain a) (sentSub a subs) ms ∧ Arrives 5 ms bs ∧ ms.length = 2 ∧ bs.length = 3 := by
  refine ⟨⟨1, exHash 1, exHash 0, 5, GMap.ofList [(str "a", [1])], GMap.ofList [(str "d", ())], GMap.ofList [(str "p/", exWId 0)]⟩,
    fun _ => ⟨[str "p/d"], GMap.ofList [(str "p/x", [2])]⟩, _, _, ?_, by decide, by decide +kernel, ?_,
    ⟨_, List.Perm.swap _ _ _, .take (.take .nil)⟩,
    .note ⟨false, false, false⟩ rfl trivial (.ping (.note ⟨false, false, false⟩ rfl ⟨by decide +kernel, by decide, by decide⟩ .nil)), rfl, rfl⟩
  · have k1 : (GMap.ofList [(str "a", [(1 : UInt8)])]).keys = [str "a"] := by decide +kernel
    have k2 : (GMap.ofList [(str "d", ())]).keys = [str "d"] := by decide +kernel
    have k3 : (GMap.ofList [(str "p/", exWId 0)]).keys = [str "p/"] := by decide +kernel
    have k4 : (GMap.ofList [(str "p/x", [(2 : UInt8)])]).keys = [str "p/x"] := by decide +kernel
    refine ⟨fun k hk => ?_, fun k hk => ?_, fun k hk => ?_, fun _ _ _ k hk => ?_, fun _ _ _ k hk => ?_⟩
    · simp only [k1, List.mem_singleton] at hk; rw [hk]; exact utf8_ascii (by decide +kernel)
    · simp only [k2, List.mem_singleton] at hk; rw [hk]; exact utf8_ascii (by decide +kernel)
    · simp only [k3, List.mem_singleton] at hk; rw [hk]; exact utf8_ascii (by decide +kernel)
    · simp only [k4, List.mem_singleton] at hk; rw [hk]; exact utf8_ascii (by decide +kernel)
    · simp only [List.mem_singleton] at hk; rw [hk]; exact utf8_ascii (by decide +kernel)
  · have hne : str "a" ≠ str "p/x" := by decide +kernel
    have hp : ∀ k v, WsValue ⟨1, exHash 1, exHash 0, 5, GMap.ofList [(str "a", [1])], GMap.ofList [(str "d", ())],
        GMap.ofList [(str "p/", exWId 0)]⟩ (fun _ => ⟨[str "p/d"], GMap.ofList [(str "p/x", [2])]⟩) k v →
        (k, v) = (str "a", [1]) ∨ (k, v) = (str "p/x", [2]) := by
      intro k v h
      rcases h with h | ⟨_, _, _, h⟩
      · have := (GMap.get?_eq_some_iff _).mp h
        have e : (GMap.ofList [(str "a", [(1 : UInt8)])]).entries = [(str "a", [1])] := by decide +kernel
        simp only [e, List.mem_singleton] at this
        exact .inl this
      · have := (GMap.get?_eq_some_iff _).mp h
        have e : (GMap.ofList [(str "p/x", [(2 : UInt8)])]).entries = [(str "p/x", [2])] := by decide +kernel
        simp only [e, List.mem_singleton] at this
        exact .inr this
    intro k v w h1 h2
    rcases hp k v h1 with e | e <;> rcases hp k w h2 with e' | e' <;> simp only [Prod.mk.injEq] at e e'
    · exact e.2.trans e'.2.symm
    · exact absurd (e.1.symm.trans e'.1) hne
    · exact absurd (e'.1.symm.trans e.1) hne
    · exact e.2.trans e'.2.symm

/-- The hypotheses of `C118_weight_refuted`. -/
example : (258 : Nat) < 2 ^ 64 ∧ ((-1 : Int) < 0 ∨ 2 ^ 256 ≤ (-1 : Int)) ∧ ((2 : Int) ^ 256 < 0 ∨ (2 : Int) ^ 256 ≤ 2 ^ 256) := by decide +kernel

/-- The hypothesis of `C118_bytes`: a message that is not JSON, a notification, the same message again; the consumer handles the notification twice. -/
example : (match (WConn.new 0 Hash.zero).bytes (fun _ => MapOrder.plain) 5 JNote.zero
    [str "x", noteText 5 (((WMsg.reorg 3 (exHash 1)).text ⟨false, false, false⟩).getD []), str "x"] with
    | some (.ok d) => some d.out.length
    | _ => none) = some 2 := by decide +kernel

/-- The hypotheses of `C118_other`. -/
example : (6 : Nat) < 2 ^ 64 ∧ 6 ≠ 5 ∧ parseJson (str "{\"a\":1") = none ∧ (WMsg.ready.text ⟨false, false, false⟩).isSome := by decide +kernel

/-- The hypothesis of `C118_extra_member`. -/
example : ∀ name ∈ ["number", "weight", "hash", "parent", "values", "deletes", "batches"], isField name (str "timestamp") = false := by decide +kernel

/-- The hypotheses of `C118_note_extra`: `"id":1`, and `"params":[]`. -/
example : (∀ name ∈ ["jsonrpc", "method", "params"], isField name (str "id") = false) ∧ (∀ l, Json.arr [] ≠ .obj l) ∧
    ∀ name ∈ ["subscription", "result"], isField name (str "id") = false :=
  ⟨by decide +kernel, (fun _ h => by cases h), by decide +kernel⟩

/-- The hypotheses of `C118_wrong_kind` and `C118_unreadable`: `"values":""`, `"deletes":{}` and `"number":null`. -/
example : WrongKind (str "values") (.str []) ∧ WrongKind (str "deletes") (.obj []) ∧
    (str "number" ∈ [str "number", str "hash", str "parent"] ∧ ∀ raw, Json.null ≠ .str raw) :=
  ⟨.inl ⟨.inl rfl, (fun h => by cases h), fun l h => by cases h⟩, .inr ⟨rfl, (fun h => by cases h), fun l h => by cases h⟩, by decide +kernel, fun _ h => by cases h⟩

end Verif
