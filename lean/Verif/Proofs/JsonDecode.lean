import Verif.Proofs.JsonText
/-!
# Decoding what was written
-/
namespace Verif

instance : DecidablePred PlainByte := fun c => by unfold PlainByte; infer_instance

theorem memOk {name : String} {t : Bytes} {j : Json} (hc : ∀ c ∈ str name, PlainByte c) (hn : unquote (str name) = some (str name)) (h : Parses t j) :
    Mem.Ok ⟨str name, t, str name, j⟩ := ⟨Clean.bytes hc, hn, h⟩

/-- The entries of a map in the order of the text. -/
def sortedEntries {V : Type} (m : GMap GoStr V) : List (GoStr × V) := m.entries.mergeSort (fun x y => strLe x.1 y.1)

theorem parses_map {V : Type} (w : JOpt) {f : V → Bytes} {j : V → Json} (h : ∀ v, Parses (f v) (j v)) (m : GMap GoStr V) :
    Parses (mapText w f m) (.obj ((sortedEntries m).map (fun e => (jsonString e.1, j e.2)))) := by
  have := Parses.obj (l := (sortedEntries m).map (fun e => ⟨escString w.short e.1, f e.2, jsonString e.1, j e.2⟩)) (by
    intro e he
    obtain ⟨x, _, rfl⟩ := List.mem_map.mp he
    exact ⟨clean_escString _ _, unquote_escString _ _, h _⟩)
  rw [List.map_map, List.map_map] at this
  exact this

theorem parses_bytes (v : Bytes) : Parses (quoted (hexDataText v)) (.str (hexDataText v)) := Parses.plain (plain_hexBytes v)

theorem parses_hash (h : Hash) : Parses (hashText h) (.str (hexDataText h.bytes)) := Parses.plain (plain_hexBytes _)

theorem parses_number (n : Nat) : Parses (quoted (hexNumber n)) (.str (hexNumber n)) := Parses.plain (plain_hexNumber n)

theorem parses_deletes (w : JOpt) (l : List GoStr) : ∃ j, Parses (deletesText w l) j ∧ ∀ old, putStrings old j = l.map jsonString := by
  unfold deletesText
  split
  · rename_i h
    exact ⟨_, Parses.null, fun old => by rw [h.1]; rfl⟩
  · have := Parses.arr (l := l.map (fun k => (quoted (escString w.short k), Json.str (escString w.short k)))) (by
      intro e he
      obtain ⟨x, _, rfl⟩ := List.mem_map.mp he
      exact Parses.quoted (clean_escString _ _))
    rw [List.map_map, List.map_map] at this
    refine ⟨_, this, fun old => ?_⟩
    simp only [putStrings, List.map_map]
    refine List.map_congr_left (fun k _ => ?_)
    simp only [Function.comp, putString, unquote_escString]
    rfl

theorem putEntries_map {V : Type} {d : Json → Option V} {j : V → Json} (h : ∀ v, d (j v) = some v) (l : List (GoStr × V)) (m : GMap GoStr V) :
    putEntries d m (l.map (fun e => (jsonString e.1, j e.2))) = (l.foldl (fun acc e => acc.insert (jsonString e.1) e.2) m, true) := by
  induction l generalizing m with
  | nil => rfl
  | cons e l ih =>
    simp only [List.map_cons, putEntries, h, List.foldl_cons]
    exact ih _

/-- A map after writing and reading. -/
def reread {V : Type} (m : GMap GoStr V) : GMap GoStr V :=
  (sortedEntries m).foldl (fun acc e => acc.insert (jsonString e.1) e.2) GMap.empty

theorem putMap_values (m : GMap GoStr Bytes) :
    putMap decBytes GMap.empty (.obj ((sortedEntries m).map (fun e => (jsonString e.1, Json.str (hexDataText e.2))))) = (reread m, true) :=
  putEntries_map (j := fun v => Json.str (hexDataText v)) (fun v => hexData_bytes v) _ _

theorem parses_batches (w : JOpt) (m : GMap GoStr Hash) :
    ∃ j, Parses (if m.entries = [] ∧ w.nilBatches then nullText else mapText w hashText m) j ∧ putMap decHash GMap.empty j = (reread m, true) := by
  split
  · rename_i h
    refine ⟨_, Parses.null, ?_⟩
    have : reread m = GMap.empty := by
      unfold reread sortedEntries
      rw [h.1, List.mergeSort_nil]
      rfl
    rw [this]
    rfl
  · exact ⟨_, parses_map w parses_hash m, putEntries_map (V := Hash) (d := decHash) (j := fun v : Hash => Json.str (hexDataText v.bytes)) (fun v => decHash_text v) _ _⟩

/-- The parsed weight. -/
def weightJson : Option Int → Json
  | none => .null
  | some x => .str (hexBig x)

theorem parses_batch {v d b : Bytes} {vj dj bj : Json} (hv : Parses v vj) (hd : Parses d dj) (hb : Parses b bj) (number : Nat) (weight : Option Int)
    (hash parent : Hash) : Parses (batchText number weight hash parent v d b) (.obj [
      (str "number", .str (hexNumber number)),
      (str "weight", weightJson weight),
      (str "hash", .str (hexDataText hash.bytes)),
      (str "parent", .str (hexDataText parent.bytes)),
      (str "values", vj),
      (str "deletes", dj),
      (str "batches", bj)]) := by
  have hw : Parses (match weight with | none => nullText | some x => quoted (hexBig x)) (weightJson weight) := by
    cases weight with
    | none => exact Parses.null
    | some x => exact Parses.plain (plain_hexBig x)
  refine Parses.obj (l := [⟨str "number", _, str "number", _⟩, ⟨str "weight", _, str "weight", _⟩, ⟨str "hash", _, str "hash", _⟩,
    ⟨str "parent", _, str "parent", _⟩, ⟨str "values", _, str "values", _⟩, ⟨str "deletes", _, str "deletes", _⟩, ⟨str "batches", _, str "batches", _⟩]) ?_
  intro e he
  simp only [List.mem_cons, List.not_mem_nil, or_false] at he
  rcases he with rfl | rfl | rfl | rfl | rfl | rfl | rfl
  · exact memOk (by decide +kernel) (by decide +kernel) (parses_number number)
  · exact memOk (by decide +kernel) (by decide +kernel) hw
  · exact memOk (by decide +kernel) (by decide +kernel) (parses_hash hash)
  · exact memOk (by decide +kernel) (by decide +kernel) (parses_hash parent)
  · exact memOk (by decide +kernel) (by decide +kernel) hv
  · exact memOk (by decide +kernel) (by decide +kernel) hd
  · exact memOk (by decide +kernel) (by decide +kernel) hb

/-! ## Members by name -/

theorem member_number (b : JBatch) (j : Json) :
    b.member (str "number") j = ({ b with number := (putWith (decUint64 j) b.number).1 }, (putWith (decUint64 j) b.number).2) := by
  unfold JBatch.member
  rw [if_pos (by decide +kernel)]

theorem member_weight (b : JBatch) (j : Json) :
    b.member (str "weight") j = ({ b with weight := (putBig b.weight j).1 }, (putBig b.weight j).2) := by
  unfold JBatch.member
  rw [if_neg (by decide +kernel), if_pos (by decide +kernel)]

theorem member_hash (b : JBatch) (j : Json) :
    b.member (str "hash") j = ({ b with hash := (putWith (decHash j) b.hash).1 }, (putWith (decHash j) b.hash).2) := by
  unfold JBatch.member
  rw [if_neg (by decide +kernel), if_neg (by decide +kernel), if_pos (by decide +kernel)]

theorem member_parent (b : JBatch) (j : Json) :
    b.member (str "parent") j = ({ b with parentHash := (putWith (decHash j) b.parentHash).1 }, (putWith (decHash j) b.parentHash).2) := by
  unfold JBatch.member
  rw [if_neg (by decide +kernel), if_neg (by decide +kernel), if_neg (by decide +kernel), if_pos (by decide +kernel)]

theorem member_values (b : JBatch) (j : Json) :
    b.member (str "values") j = ({ b with values := (putMap decBytes b.values j).1 }, (putMap decBytes b.values j).2) := by
  unfold JBatch.member
  rw [if_neg (by decide +kernel), if_neg (by decide +kernel), if_neg (by decide +kernel), if_neg (by decide +kernel), if_pos (by decide +kernel)]

theorem member_deletes (b : JBatch) (j : Json) : b.member (str "deletes") j = ({ b with deletes := putStrings b.deletes j }, true) := by
  unfold JBatch.member
  rw [if_neg (by decide +kernel), if_neg (by decide +kernel), if_neg (by decide +kernel), if_neg (by decide +kernel), if_neg (by decide +kernel),
    if_pos (by decide +kernel)]

theorem member_batches (b : JBatch) (j : Json) :
    b.member (str "batches") j = ({ b with batches := (putMap decHash b.batches j).1 }, (putMap decHash b.batches j).2) := by
  unfold JBatch.member
  rw [if_neg (by decide +kernel), if_neg (by decide +kernel), if_neg (by decide +kernel), if_neg (by decide +kernel), if_neg (by decide +kernel),
    if_neg (by decide +kernel), if_pos (by decide +kernel)]

theorem putMembers_go {α : Type} {f : α → GoStr → Json → Put α} {x y : α} {k : GoStr} {j : Json} (h : f x k j = (y, true)) (l : List (GoStr × Json)) :
    putMembers f x ((k, j) :: l) = putMembers f y l := by
  simp only [putMembers, h]

theorem putMembers_stop {α : Type} {f : α → GoStr → Json → Put α} {x y : α} {k : GoStr} {j : Json} (h : f x k j = (y, false)) (l : List (GoStr × Json)) :
    putMembers f x ((k, j) :: l) = (y, false) := by
  simp only [putMembers, h]

theorem decode_batch {number : Nat} (hn : number < 16 ^ 16) {weight : Option Int} {wt : Option Nat} (hw : putBig none (weightJson weight) = (wt, true))
    (hash parent : Hash) {vj dj bj : Json} {vs : GMap GoStr Bytes} {ds : List GoStr} {bs : GMap GoStr Hash} (hv : putMap decBytes GMap.empty vj = (vs, true))
    (hd : ∀ old, putStrings old dj = ds) (hb : putMap decHash GMap.empty bj = (bs, true)) :
    putMembers JBatch.member JBatch.zero [
      (str "number", .str (hexNumber number)),
      (str "weight", weightJson weight),
      (str "hash", .str (hexDataText hash.bytes)),
      (str "parent", .str (hexDataText parent.bytes)),
      (str "values", vj),
      (str "deletes", dj),
      (str "batches", bj)] = (⟨number, wt, hash, parent, vs, ds, bs⟩, true) := by
  have h1 : decUint64 (.str (hexNumber number)) = some number := hexNum_number (by omega) hn
  rw [putMembers_go (y := { JBatch.zero with number := number }) (by rw [member_number, h1]; rfl),
    putMembers_go (y := { JBatch.zero with number := number, weight := wt }) (by
      rw [member_weight]
      have : putBig JBatch.zero.weight (weightJson weight) = (wt, true) := hw
      simp only [this]),
    putMembers_go (y := { JBatch.zero with number := number, weight := wt, hash := hash }) (by rw [member_hash, decHash_text]; rfl),
    putMembers_go (y := { JBatch.zero with number := number, weight := wt, hash := hash, parentHash := parent }) (by rw [member_parent, decHash_text]; rfl),
    putMembers_go (y := { JBatch.zero with number := number, weight := wt, hash := hash, parentHash := parent, values := vs }) (by
      rw [member_values]
      have : putMap decBytes JBatch.zero.values vj = (vs, true) := hv
      simp only [this]),
    putMembers_go (y := { JBatch.zero with number := number, weight := wt, hash := hash, parentHash := parent, values := vs, deletes := ds }) (by
      rw [member_deletes, hd]),
    putMembers_go (y := ⟨number, wt, hash, parent, vs, ds, bs⟩) (by
      rw [member_batches]
      have : putMap decHash JBatch.zero.batches bj = (bs, true) := hb
      simp only [this])]
  rfl

theorem putBig_weight {x : Int} (h0 : 0 ≤ x) (h1 : x < 2 ^ 256) : putBig none (weightJson (some x)) = (some x.toNat, true) := by
  have e : hexBig x = hexNumber x.natAbs := by
    unfold hexBig
    rw [if_neg (by omega)]
  have e2 : hexNum 64 (hexNumber x.natAbs) = some x.natAbs := hexNum_number (by omega) (by
    have : (16 : Nat) ^ 64 = 2 ^ 256 := by decide +kernel
    rw [this]
    omega)
  simp only [weightJson, putBig, e, e2]
  congr 2
  omega

/-! ## Sub-batches -/

theorem sub_hash (s : TSub) (j : Json) : s.member (str "hash") j = ({ s with hash := (putWith (decHash j) s.hash).1 }, (putWith (decHash j) s.hash).2) := by
  unfold TSub.member
  rw [if_pos (by decide +kernel)]

theorem sub_batchid (s : TSub) (j : Json) :
    s.member (str "batchid") j = ({ s with batchId := (putWith (decHash j) s.batchId).1 }, (putWith (decHash j) s.batchId).2) := by
  unfold TSub.member
  rw [if_neg (by decide +kernel), if_pos (by decide +kernel)]

theorem sub_values (s : TSub) (j : Json) :
    s.member (str "values") j = ({ s with values := (putMap decBytes s.values j).1 }, (putMap decBytes s.values j).2) := by
  unfold TSub.member
  rw [if_neg (by decide +kernel), if_neg (by decide +kernel), if_pos (by decide +kernel)]

theorem sub_deletes (s : TSub) (j : Json) : s.member (str "deletes") j = ({ s with deletes := putStrings s.deletes j }, true) := by
  unfold TSub.member
  rw [if_neg (by decide +kernel), if_neg (by decide +kernel), if_neg (by decide +kernel), if_pos (by decide +kernel)]

theorem parses_sub {v d : Bytes} {vj dj : Json} (hv : Parses v vj) (hd : Parses d dj) (hash id : Hash) :
    Parses (objText [(str "hash", hashText hash), (str "batchid", hashText id), (str "values", v), (str "deletes", d)]) (.obj [
      (str "hash", .str (hexDataText hash.bytes)),
      (str "batchid", .str (hexDataText id.bytes)),
      (str "values", vj),
      (str "deletes", dj)]) := by
  refine Parses.obj (l := [⟨str "hash", _, str "hash", _⟩, ⟨str "batchid", _, str "batchid", _⟩, ⟨str "values", _, str "values", _⟩,
    ⟨str "deletes", _, str "deletes", _⟩]) ?_
  intro e he
  simp only [List.mem_cons, List.not_mem_nil, or_false] at he
  rcases he with rfl | rfl | rfl | rfl
  · exact memOk (by decide +kernel) (by decide +kernel) (parses_hash hash)
  · exact memOk (by decide +kernel) (by decide +kernel) (parses_hash id)
  · exact memOk (by decide +kernel) (by decide +kernel) hv
  · exact memOk (by decide +kernel) (by decide +kernel) hd

theorem decode_sub (hash id : Hash) {vj dj : Json} {vs : GMap GoStr Bytes} {ds : List GoStr} (hv : putMap decBytes GMap.empty vj = (vs, true))
    (hd : ∀ old, putStrings old dj = ds) :
    putMembers TSub.member TSub.zero [
      (str "hash", .str (hexDataText hash.bytes)),
      (str "batchid", .str (hexDataText id.bytes)),
      (str "values", vj),
      (str "deletes", dj)] = (⟨hash, id, vs, ds⟩, true) := by
  rw [putMembers_go (y := { TSub.zero with hash := hash }) (by rw [sub_hash, decHash_text]; rfl),
    putMembers_go (y := { TSub.zero with hash := hash, batchId := id }) (by rw [sub_batchid, decHash_text]; rfl),
    putMembers_go (y := { TSub.zero with hash := hash, batchId := id, values := vs }) (by
      rw [sub_values]
      have : putMap decBytes TSub.zero.values vj = (vs, true) := hv
      simp only [this]),
    putMembers_go (y := ⟨hash, id, vs, ds⟩) (by rw [sub_deletes, hd])]
  rfl

/-! ## Messages and notifications -/

theorem item_type (i : JItem) (j : Json) : i.member (str "type") j = ({ i with type := putString i.type j }, true) := by
  unfold JItem.member
  rw [if_pos (by decide +kernel)]

theorem item_batch (i : JItem) (j : Json) :
    i.member (str "batch") j = ({ i with batch := (putPtr JBatch.zero JBatch.member i.batch j).1 }, (putPtr JBatch.zero JBatch.member i.batch j).2) := by
  unfold JItem.member
  rw [if_neg (by decide +kernel), if_pos (by decide +kernel)]

theorem item_sub (i : JItem) (j : Json) :
    i.member (str "subbatch") j = ({ i with sub := (putPtr TSub.zero TSub.member i.sub j).1 }, (putPtr TSub.zero TSub.member i.sub j).2) := by
  unfold JItem.member
  rw [if_neg (by decide +kernel), if_neg (by decide +kernel), if_pos (by decide +kernel)]

theorem parses_note {t : Bytes} {j : Json} (h : Parses t j) (subid : Nat) : Parses (noteText subid t) (.obj [
    (str "jsonrpc", .str (str "2.0")),
    (str "method", .str (str "cardinal_subscribe")),
    (str "params", .obj [(str "subscription", .str (hexNumber subid)), (str "result", j)])]) := by
  refine Parses.obj (l := [⟨str "jsonrpc", _, str "jsonrpc", _⟩, ⟨str "method", _, str "method", _⟩, ⟨str "params", _, str "params", _⟩]) ?_
  intro e he
  simp only [List.mem_cons, List.not_mem_nil, or_false] at he
  rcases he with rfl | rfl | rfl
  · exact memOk (by decide +kernel) (by decide +kernel) (Parses.plain (by decide +kernel))
  · exact memOk (by decide +kernel) (by decide +kernel) (Parses.plain (by decide +kernel))
  · refine memOk (by decide +kernel) (by decide +kernel) ?_
    refine Parses.obj (l := [⟨str "subscription", _, str "subscription", _⟩, ⟨str "result", _, str "result", _⟩]) ?_
    intro e he
    simp only [List.mem_cons, List.not_mem_nil, or_false] at he
    rcases he with rfl | rfl
    · exact memOk (by decide +kernel) (by decide +kernel) (parses_number subid)
    · exact memOk (by decide +kernel) (by decide +kernel) h

theorem note_version (n : JNote) (j : Json) : n.member (str "jsonrpc") j = ({ n with version := putString n.version j }, true) := by
  unfold JNote.member
  rw [if_pos (by decide +kernel)]

theorem note_method (n : JNote) (j : Json) : n.member (str "method") j = ({ n with method := putString n.method j }, true) := by
  unfold JNote.member
  rw [if_neg (by decide +kernel), if_pos (by decide +kernel)]

theorem note_params (n : JNote) (l : List (GoStr × Json)) : n.member (str "params") (.obj l) = putMembers JNote.param n l := by
  unfold JNote.member
  rw [if_neg (by decide +kernel), if_neg (by decide +kernel), if_pos (by decide +kernel)]

theorem param_id (n : JNote) (j : Json) : n.param (str "subscription") j = ({ n with id := (putWith (decUint64 j) n.id).1 }, (putWith (decUint64 j) n.id).2) := by
  unfold JNote.param
  rw [if_pos (by decide +kernel)]

theorem param_result (n : JNote) (j : Json) : n.param (str "result") j = ({ n with result := some j }, true) := by
  unfold JNote.param
  rw [if_neg (by decide +kernel), if_pos (by decide +kernel)]

/-- Whatever was read before, a notification of the subscription is read as what it is. -/
theorem read_note {t : Bytes} {j : Json} (h : Parses t j) {subid : Nat} (hs : subid < 16 ^ 16) (n : JNote) :
    n.read (noteText subid t) = ⟨str "2.0", str "cardinal_subscribe", subid, some j⟩ := by
  unfold JNote.read
  rw [(parses_note h subid).parse]
  simp only []
  have h1 : decUint64 (.str (hexNumber subid)) = some subid := hexNum_number (by omega) hs
  have hp : ∀ n : JNote, putMembers JNote.param n [(str "subscription", .str (hexNumber subid)), (str "result", j)] =
      ({ n with id := subid, result := some j }, true) := by
    intro n
    rw [putMembers_go (y := { n with id := subid }) (by rw [param_id, h1]; rfl),
      putMembers_go (y := { n with id := subid, result := some j }) (by rw [param_result])]
    rfl
  have hu1 : ∀ old, putString old (.str (str "2.0")) = str "2.0" := by
    intro old
    have : unquote (str "2.0") = some (str "2.0") := by decide +kernel
    simp only [putString, this]
    rfl
  have hu2 : ∀ old, putString old (.str (str "cardinal_subscribe")) = str "cardinal_subscribe" := by
    intro old
    have : unquote (str "cardinal_subscribe") = some (str "cardinal_subscribe") := by decide +kernel
    simp only [putString, this]
    rfl
  rw [putMembers_go (y := { n with version := str "2.0" }) (by rw [note_version, hu1]),
    putMembers_go (y := { n with version := str "2.0", method := str "cardinal_subscribe" }) (by rw [note_method, hu2]),
    putMembers_go (y := ⟨str "2.0", str "cardinal_subscribe", subid, some j⟩) (by rw [note_params, hp])]
  rfl

theorem item_note {t : Bytes} {j : Json} (h : Parses t j) {subid : Nat} (hs : subid < 16 ^ 16) (n : JNote) :
    (n.read (noteText subid t)).item subid = some (decItem (some j)) := by
  rw [read_note h hs]
  unfold JNote.item
  rw [if_pos ⟨rfl, rfl⟩]

end Verif
