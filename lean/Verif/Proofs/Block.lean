import Verif.Proofs.Hollow
import Verif.Proofs.Path
import Verif.Proofs.Keys
/-! Assembly of one block from consistent messages: the invariant of its pending batch. -/
namespace Verif
open Spec Path

/-- What the messages of one block say: the header, the updates and deletes sent as messages of their own with the prefix they
are counted under, and the records of each sub-batch. -/
structure Blk where
  hash : Hash
  hdr : Batch
  upd : GMap GoStr Bytes
  del : GMap GoStr Unit
  pre : GoStr → GoStr
  recs : Hash → List SubBatchRecord

namespace Blk

/-- The header names the sub-batch. -/
def Sub (B : Blk) (id : Hash) : Prop := ∃ x r, B.hdr.updates.get? x = some r ∧ r.subbatch = id ∧ id ≠ Hash.zero

/-- The header names the sub-batch under an accepted path. -/
def Live (B : Blk) (tracked : GoStr → Bool) (id : Hash) : Prop :=
  ∃ x r, B.hdr.updates.get? x = some r ∧ tracked x = true ∧ r.subbatch = id ∧ id ≠ Hash.zero

/-- The keys counted under `x`. -/
def total (B : Blk) (x : GoStr) : Nat :=
  (B.upd.keys.filter (fun k => B.pre k = x)).length + (B.del.keys.filter (fun k => B.pre k = x)).length

/-- Consistency. -/
structure WF (B : Blk) : Prop where
  upd_ne : ∀ k v, B.upd.get? k = some v → v ≠ []
  key : ∀ k, k ∈ B.upd.keys ∨ k ∈ B.del.keys → TidyKey k ∧ DirPrefix (B.pre k) k
  count : ∀ x r, B.hdr.updates.get? x = some r → r.count = (B.total x : Int)
  counted : ∀ k, k ∈ B.upd.keys ∨ k ∈ B.del.keys → ∃ r, B.hdr.updates.get? (B.pre k) = some r
  free : ∀ x r k, B.hdr.updates.get? x = some r → r.count ≠ 0 → k ∈ B.upd.keys ∨ k ∈ B.del.keys →
    x <+: k ++ [slash] → x = B.pre k
  inlineUpd : ∀ x r, B.hdr.updates.get? x = some r → r.value ≠ [] → x ∉ B.upd.keys
  inlineDel : ∀ x r, B.hdr.updates.get? x = some r → r.delete = true → x ∉ B.del.keys
  subUpd : ∀ id r k v, B.Sub id → r ∈ B.recs id → r.updates.get? k = some v → k ∉ B.upd.keys
  subInline : ∀ id r k v r', B.Sub id → r ∈ B.recs id → r.updates.get? k = some v → B.hdr.updates.get? k = some r' → r'.value = []
  subFun : ∀ id r k v id' r' v', B.Sub id → r ∈ B.recs id → r.updates.get? k = some v →
    B.Sub id' → r' ∈ B.recs id' → r'.updates.get? k = some v' → v = v'
  subDel : ∀ id r k, B.Sub id → r ∈ B.recs id → k ∈ r.delete → k ∉ B.del.keys
  size : ∀ id, B.Sub id → (B.recs id).length < 2147483648

/-- The same header, the entries of its map in whatever order and its weight with whatever leading zeros. -/
structure HdrLike (b b' : Batch) : Prop where
  number : b.number = b'.number
  weight : bytesNat b.weight = bytesNat b'.weight
  parent : b.parentHash = b'.parentHash
  entry : ∀ x, b.updates.get? x = b'.updates.get? x

theorem HdrLike.refl (b : Batch) : HdrLike b b := ⟨rfl, rfl, rfl, fun _ => rfl⟩

/-- The same record of a sub-batch, its map and its list in whatever order. -/
structure RecLike (r r' : SubBatchRecord) : Prop where
  upd : ∀ k, r.updates.get? k = r'.updates.get? k
  del : ∀ k, k ∈ r.delete ↔ k ∈ r'.delete

theorem RecLike.refl (r : SubBatchRecord) : RecLike r r := ⟨fun _ => rfl, fun _ => .rfl⟩

/-- The messages of the block: identity and value. -/
inductive Mine (C : Codec) (B : Blk) : MsgId → Bytes → Prop
  | header (v : Bytes) (b : Batch) (h : C.decBatch v = some b) (hl : HdrLike b B.hdr) : Mine C B (.batch B.hash) v
  | upd (k : GoStr) (v : Bytes) (h : B.upd.get? k = some v) : Mine C B (.update B.hash k) v
  | del (k : GoStr) (v : Bytes) (h : B.del.contains k = true) : Mine C B (.delete B.hash k) v
  | subHeader (id : Hash) (v : Bytes) (hs : B.Sub id) (h : C.decInt v = some ((B.recs id).length : Int)) :
      Mine C B (.subHeader B.hash id) v
  | subMsg (id : Hash) (i : Nat) (r r' : SubBatchRecord) (v : Bytes) (hs : B.Sub id) (hr : (B.recs id)[i]? = some r)
      (h : C.decSub v = some r') (hl : RecLike r' r) : Mine C B (.subMsg B.hash id (i : Int)) v

/-- What may be in the values. -/
def ExpV (B : Blk) (tracked : GoStr → Bool) (k : GoStr) (v : Bytes) : Prop :=
  (∃ r, B.hdr.updates.get? k = some r ∧ tracked k = true ∧ r.value = v ∧ v ≠ []) ∨
  (B.upd.get? k = some v ∧ tracked (B.pre k) = true) ∨
  (∃ id r, B.Live tracked id ∧ r ∈ B.recs id ∧ r.updates.get? k = some v)

/-- What may be in the deletes. -/
def ExpD (B : Blk) (tracked : GoStr → Bool) (k : GoStr) : Prop :=
  (∃ r, B.hdr.updates.get? k = some r ∧ tracked k = true ∧ r.delete = true) ∨
  (B.del.contains k = true ∧ tracked (B.pre k) = true) ∨
  (∃ id r, B.Live tracked id ∧ r ∈ B.recs id ∧ k ∈ r.delete)

/-- The messages still missing under `x`. -/
def rem (B : Blk) (pb : PB) (x : GoStr) : Nat :=
  (B.upd.keys.filter (fun k => B.pre k = x && !pb.values.contains k)).length +
  (B.del.keys.filter (fun k => B.pre k = x && !pb.deletes.contains k)).length

/-- The content of a sub-batch record is in the block. -/
def Has (pb : PB) (r : SubBatchRecord) : Prop :=
  (∀ k v, r.updates.get? k = some v → pb.values.get? k = some v) ∧ ∀ k ∈ r.delete, pb.deletes.contains k = true

/-- The invariant of the pending batch. -/
structure Inv (C : Codec) (B : Blk) (tracked : GoStr → Bool) (pb : PB) : Prop where
  hash : pb.hash = B.hash
  number : pb.number = B.hdr.number
  weight : pb.weight = bytesNat B.hdr.weight
  parent : pb.parentHash = B.hdr.parentHash
  values : ∀ k v, pb.values.get? k = some v → B.ExpV tracked k v
  inline : ∀ k r, B.hdr.updates.get? k = some r → tracked k = true → r.value ≠ [] → pb.values.get? k = some r.value
  deletes : ∀ k, pb.deletes.contains k = true → B.ExpD tracked k
  inlineD : ∀ k r, B.hdr.updates.get? k = some r → tracked k = true → r.delete = true → pb.deletes.contains k = true
  prefixes : ∀ x, pb.prefixes.get? x = if tracked x = true ∧ B.total x ≠ 0 then some (B.rem pb x : Int) else none
  pending : ∀ id, pb.pendingBatches.contains id = true ↔ B.Live tracked id ∧ pb.batches.get? id = none
  bits : ∀ id bits, pb.batches.get? id = some bits → B.Live tracked id ∧ bits.length = (B.recs id).length ∧
    ∀ (i : Nat) r, bits[i]? = some true → (B.recs id)[i]? = some r → Has pb r
  msgs : ∀ e ∈ pb.pendingMessages.entries, ∃ i, e.1 = keyOf C i ∧ e.2.key = keyOf C i ∧ Mine C B i e.2.value ∧
    (i.type = 2 ∨ i.type = 3 ∨ i.type = 4)

/-- The pending batch has taken notice of the message. -/
def Took (C : Codec) (B : Blk) (tracked : GoStr → Bool) (pb : PB) : MsgId → Prop
  | .update _ k => tracked (B.pre k) = true → pb.values.contains k = true
  | .delete _ k => tracked (B.pre k) = true → pb.deletes.contains k = true
  | .subHeader _ id => B.Live tracked id → ∃ bits, pb.batches.get? id = some bits
  | .subMsg _ id i => B.Live tracked id →
    (pb.batches.get? id = none ∧ pb.pendingMessages.contains (keyOf C (.subMsg B.hash id i)) = true) ∨
    ∃ bits, pb.batches.get? id = some bits ∧ bits[i.toNat]? = some true
  | _ => True

theorem Live.sub {B : Blk} {tracked : GoStr → Bool} {id : Hash} (h : B.Live tracked id) : B.Sub id := by
  obtain ⟨x, r, h1, _, h2, h3⟩ := h; exact ⟨x, r, h1, h2, h3⟩

theorem Inv.ofFields {C : Codec} {B : Blk} {tracked : GoStr → Bool} {pb pb' : PB} (h : Inv C B tracked pb)
    (h1 : pb'.hash = pb.hash) (h2 : pb'.number = pb.number) (h3 : pb'.weight = pb.weight) (h4 : pb'.parentHash = pb.parentHash)
    (h5 : pb'.values = pb.values) (h6 : pb'.deletes = pb.deletes) (h7 : pb'.prefixes = pb.prefixes)
    (h8 : pb'.pendingBatches = pb.pendingBatches) (h9 : pb'.batches = pb.batches)
    (hm : ∀ e ∈ pb'.pendingMessages.entries, ∃ i, e.1 = keyOf C i ∧ e.2.key = keyOf C i ∧ Mine C B i e.2.value ∧
      (i.type = 2 ∨ i.type = 3 ∨ i.type = 4)) : Inv C B tracked pb' where
  hash := h1.trans h.hash
  number := h2.trans h.number
  weight := h3.trans h.weight
  parent := h4.trans h.parent
  values := by rw [h5]; exact h.values
  inline := by rw [h5]; exact h.inline
  deletes := by rw [h6]; exact h.deletes
  inlineD := by rw [h6]; exact h.inlineD
  prefixes := by rw [h7]; unfold rem; rw [h5, h6]; exact h.prefixes
  pending := by rw [h8, h9]; exact h.pending
  bits := by rw [h9]; unfold Has; rw [h5, h6]; exact h.bits
  msgs := hm

/-- Setting a message aside. -/
theorem Inv.park {C : Codec} {B : Blk} {tracked : GoStr → Bool} {pb : PB} (h : Inv C B tracked pb) {m : RMsg} {i : MsgId}
    (hk : m.key = keyOf C i) (hm : Mine C B i m.value) (ht : i.type = 2 ∨ i.type = 3 ∨ i.type = 4) :
    Inv C B tracked { pb with pendingMessages := pb.pendingMessages.insert m.key m } := by
  refine h.ofFields rfl rfl rfl rfl rfl rfl rfl rfl rfl ?_
  intro e he
  have := (GMap.get?_eq_some_iff _).mpr he
  simp only [GMap.get?_insert] at this
  split at this
  · rename_i hke
    cases this
    exact ⟨i, by rw [← hke]; exact hk, hk, hm, ht⟩
  · exact h.msgs e ((GMap.get?_eq_some_iff _).mp this)

theorem Took.park {C : Codec} {B : Blk} {tracked : GoStr → Bool} {pb : PB} {i : MsgId} (h : Took C B tracked pb i) (m : RMsg) :
    Took C B tracked { pb with pendingMessages := pb.pendingMessages.insert m.key m } i := by
  cases i with
  | subMsg b id n =>
    intro hl
    rcases h hl with ⟨h1, h2⟩ | h1
    · left
      refine ⟨h1, ?_⟩
      simp only [GMap.contains_insert, h2, Bool.or_true]
    · exact .inr h1
  | _ => exact h

theorem filter_remove {l : List GoStr} (hn : l.Nodup) {k : GoStr} (hk : k ∈ l) {p q : GoStr → Bool} (hp : p k = true)
    (hq : ∀ y, y ∈ l → q y = (p y && decide (y ≠ k))) : (l.filter q).length + 1 = (l.filter p).length := by
  induction l with
  | nil => simp at hk
  | cons a l ih =>
    simp only [List.nodup_cons] at hn
    have hql : ∀ y ∈ l, q y = (p y && decide (y ≠ k)) := fun y hy => hq y (by simp [hy])
    by_cases ha : a = k
    · subst ha
      have e : l.filter q = l.filter p := by
        apply List.filter_congr
        intro y hy
        rw [hql y hy]
        have : y ≠ a := by rintro rfl; exact hn.1 hy
        simp [this]
      have hqa : q a = false := by rw [hq a (by simp)]; simp
      simp [hp, hqa, e]
    · have hk' : k ∈ l := by rcases List.mem_cons.mp hk with h | h
                             · exact absurd h.symm ha
                             · exact h
      have := ih hn.2 hk' hql
      have hqa : q a = p a := by rw [hq a (by simp)]; simp [ha]
      simp only [List.filter_cons, hqa]
      split
      · simp; exact this
      · exact this

theorem filter_pos {l : List GoStr} {k : GoStr} (hk : k ∈ l) {p : GoStr → Bool} (hp : p k = true) : 0 < (l.filter p).length :=
  List.length_pos_iff.mpr (List.ne_nil_of_mem (List.mem_filter.mpr ⟨hk, hp⟩))

section
variable {C : Codec} {B : Blk} {tracked : GoStr → Bool}

/-- A sent update already in the values has a non-empty value. -/
theorem Inv.upd_value (hw : B.WF) {pb : PB} (h : Inv C B tracked pb) {k : GoStr} {v : Bytes} (hk : k ∈ B.upd.keys)
    (hv : pb.values.get? k = some v) : v ≠ [] ∧ B.upd.get? k = some v ∧ tracked (B.pre k) = true := by
  rcases h.values k v hv with ⟨r, h1, h2, h3, h4⟩ | h1 | ⟨id, r, h1, h2, h3⟩
  · exact absurd hk (hw.inlineUpd k r h1 (by rw [h3]; exact h4))
  · exact ⟨hw.upd_ne k v h1.1, h1⟩
  · exact absurd hk (hw.subUpd id r k v h1.sub h2 h3)

theorem Inv.free (hw : B.WF) {pb : PB} (h : Inv C B tracked pb) {k : GoStr} (hk : k ∈ B.upd.keys ∨ k ∈ B.del.keys) {x : GoStr}
    (hx : x ≠ B.pre k) (hp : x <+: k ++ [slash]) : pb.prefixes.get? x = none := by
  rw [h.prefixes]
  split
  · rename_i hc
    exfalso
    have : ∃ y, (y ∈ B.upd.keys ∨ y ∈ B.del.keys) ∧ B.pre y = x := by
      refine Classical.byContradiction fun hno => hc.2 ?_
      unfold total
      have e1 : B.upd.keys.filter (fun k => decide (B.pre k = x)) = [] := by
        rw [List.filter_eq_nil_iff]; intro y hy hyx; exact hno ⟨y, .inl hy, by simpa using hyx⟩
      have e2 : B.del.keys.filter (fun k => decide (B.pre k = x)) = [] := by
        rw [List.filter_eq_nil_iff]; intro y hy hyx; exact hno ⟨y, .inr hy, by simpa using hyx⟩
      rw [e1, e2]; rfl
    obtain ⟨y, hy, rfl⟩ := this
    obtain ⟨r, hr⟩ := hw.counted y hy
    have hcount := hw.count _ r hr
    exact hx (hw.free _ r k hr (by rw [hcount]; have := hc.2; omega) hk hp)
  · rfl

theorem total_ne {k : GoStr} (hk : k ∈ B.upd.keys ∨ k ∈ B.del.keys) : B.total (B.pre k) ≠ 0 := by
  unfold total
  rcases hk with hk | hk
  · have := filter_pos hk (p := fun y => decide (B.pre y = B.pre k)) (by simp)
    omega
  · have := filter_pos hk (p := fun y => decide (B.pre y = B.pre k)) (by simp)
    omega

/-- A key under an untracked prefix is not matched. -/
theorem Inv.miss (hw : B.WF) {pb : PB} (h : Inv C B tracked pb) {k : GoStr} (hk : k ∈ B.upd.keys ∨ k ∈ B.del.keys)
    (ht : tracked (B.pre k) ≠ true) : decPrefix pb.frp pb.prefixes k = .ok (pb.prefixes, false) := by
  refine decPrefix_miss (hw.key k hk).1 ?_
  intro x hx
  by_cases he : x = B.pre k
  · subst he; rw [h.prefixes]; simp [ht]
  · exact h.free hw hk he hx

/-- A missing key under a tracked prefix is matched and counted. -/
theorem Inv.hit (hw : B.WF) {pb : PB} (h : Inv C B tracked pb) {k : GoStr} (hk : k ∈ B.upd.keys ∨ k ∈ B.del.keys)
    (ht : tracked (B.pre k) = true) (hrem : B.rem pb (B.pre k) ≠ 0) :
    decPrefix pb.frp pb.prefixes k = .ok (pb.prefixes.insert (B.pre k) ((B.rem pb (B.pre k) : Int) - 1), true) := by
  refine decPrefix_hit (hw.key k hk).1 (hw.key k hk).2 (fun x hx hp => h.free hw hk hx hp) ?_ (by omega)
  rw [h.prefixes]; simp [ht, total_ne hk]

theorem mem_keys_of_get {K V : Type} [DecidableEq K] {m : GMap K V} {k : K} {v : V} (h : m.get? k = some v) : k ∈ m.keys :=
  (GMap.mem_keys_iff m).mpr ⟨v, h⟩

theorem contains_of_get {K V : Type} [DecidableEq K] {m : GMap K V} {k : K} {v : V} (h : m.get? k = some v) :
    m.contains k = true := by unfold GMap.contains; rw [h]; rfl

theorem Has.mono {pb pb' : PB} {r : SubBatchRecord} (h : Has pb r)
    (hv : ∀ k v, pb.values.get? k = some v → r.updates.get? k = some v → pb'.values.get? k = some v)
    (hd : ∀ k, pb.deletes.contains k = true → pb'.deletes.contains k = true) : Has pb' r :=
  ⟨fun k v hk => hv k v (h.1 k v hk) hk, fun k hk => hd k (h.2 k hk)⟩

/-- An update message. -/
theorem Inv.applyUpd (hw : B.WF) {pb : PB} (h : Inv C B tracked pb) {m : RMsg} {k : GoStr}
    (hk : m.key = keyOf C (.update B.hash k)) (hm : B.upd.get? k = some m.value) :
    ∃ pb' r, pb.applyBatchMsg m = .ok (pb', r) ∧ Inv C B tracked pb' ∧ Took C B tracked pb' (.update B.hash k) ∧
      (∀ i, Took C B tracked pb i → Took C B tracked pb' i) ∧
      (r = true → pb'.batches = pb.batches ∧ pb'.pendingMessages = pb.pendingMessages) ∧ pb'.batches = pb.batches := by
  have hpath : m.key.drop 33 = k := by rw [hk, keyOf_drop33]; rfl
  have hkey := mem_keys_of_get hm
  unfold PB.applyBatchMsg
  simp only [hpath]
  by_cases hval : ((pb.values.get? k).getD []).length > 0
  · rw [if_pos hval]
    refine ⟨pb, false, rfl, h, ?_, fun i hi => hi, by simp, rfl⟩
    intro _
    cases hg : pb.values.get? k with
    | none => rw [hg] at hval; simp at hval
    | some v => exact contains_of_get hg
  · rw [if_neg hval]
    have hnone : pb.values.get? k = none := by
      cases hg : pb.values.get? k with
      | none => rfl
      | some v =>
        rw [hg] at hval
        have := (h.upd_value hw hkey hg).1
        simp at hval; exact absurd hval this
    have hcf : pb.values.contains k = false := (GMap.contains_eq_false _).mpr hnone
    by_cases ht : tracked (B.pre k) = true
    · have hrem : B.rem pb (B.pre k) ≠ 0 := by
        unfold rem
        have := filter_pos hkey (p := fun y => B.pre y = B.pre k && !pb.values.contains y) (by simp [hcf])
        omega
      rw [h.hit hw (.inl hkey) ht hrem]
      simp only []
      refine ⟨_, true, rfl, ?_, ?_, ?_, fun _ => ⟨rfl, rfl⟩, rfl⟩
      · constructor
        · exact h.hash
        · exact h.number
        · exact h.weight
        · exact h.parent
        · intro y v hy
          simp only [GMap.get?_insert] at hy
          split at hy
          · rename_i e; subst e; cases hy; exact .inr (.inl ⟨hm, ht⟩)
          · exact h.values y v hy
        · intro y r h1 h2 h3
          have := hw.inlineUpd y r h1 h3
          simp only [GMap.get?_insert]
          rw [if_neg (by rintro rfl; exact this hkey)]
          exact h.inline y r h1 h2 h3
        · exact h.deletes
        · exact h.inlineD
        · intro x
          simp only [GMap.get?_insert]
          have hr : ∀ x, B.rem { pb with prefixes := pb.prefixes.insert (B.pre k) ((B.rem pb (B.pre k) : Int) - 1),
                                         values := pb.values.insert k m.value } x =
              if B.pre k = x then B.rem pb x - 1 else B.rem pb x := by
            intro x
            unfold rem
            simp only [GMap.contains_insert]
            by_cases hx : B.pre k = x
            · rw [if_pos hx]
              have := filter_remove (l := B.upd.keys) B.upd.nodup hkey
                (p := fun y => decide (B.pre y = x) && !pb.values.contains y)
                (q := fun y => decide (B.pre y = x) && !(decide (k = y) || pb.values.contains y)) (by simp [hx, hcf])
                (by intro y _; by_cases e : k = y
                    · subst e; simp
                    · have : y ≠ k := fun e' => e e'.symm
                      simp [e, this])
              omega
            · rw [if_neg hx]
              have : B.upd.keys.filter (fun y => decide (B.pre y = x) && !(decide (k = y) || pb.values.contains y)) =
                  B.upd.keys.filter (fun y => decide (B.pre y = x) && !pb.values.contains y) := by
                apply List.filter_congr
                intro y _
                by_cases e : k = y
                · subst e; simp [hx]
                · simp [e]
              rw [this]
          rw [hr]
          by_cases hx : B.pre k = x
          · subst hx
            simp only [if_true, ht, total_ne (.inl hkey), ne_eq, not_false_eq_true, and_self]
            congr 1; omega
          · simp only [hx, if_false]; exact h.prefixes x
        · exact h.pending
        · intro id bits hb
          obtain ⟨b1, b2, b3⟩ := h.bits id bits hb
          refine ⟨b1, b2, fun i r hi hr => (b3 i r hi hr).mono ?_ (fun _ hk => hk)⟩
          intro y v hy hry
          simp only [GMap.get?_insert]
          rw [if_neg]
          · exact hy
          · rintro rfl
            exact hw.subUpd id r _ v b1.sub (List.mem_of_getElem? hr) hry hkey
        · exact h.msgs
      · intro _; simp [GMap.contains_insert]
      · intro i hi
        cases i with
        | update b y => intro hy; simp only [GMap.contains_insert, hi hy, Bool.or_true]
        | _ => exact hi
    · rw [h.miss hw (.inl hkey) ht]
      simp only []
      exact ⟨_, false, rfl, h.park hk (.upd k _ hm) (.inr (.inl rfl)), fun h => absurd h ht, fun i hi => hi.park m,
        by simp, rfl⟩

/-- A delete message. -/
theorem Inv.applyDel (hw : B.WF) {pb : PB} (h : Inv C B tracked pb) {m : RMsg} {k : GoStr}
    (hk : m.key = keyOf C (.delete B.hash k)) (hm : B.del.contains k = true) :
    ∃ pb' r, pb.applyDeleteMsg m = .ok (pb', r) ∧ Inv C B tracked pb' ∧ Took C B tracked pb' (.delete B.hash k) ∧
      (∀ i, Took C B tracked pb i → Took C B tracked pb' i) ∧
      (r = true → pb'.batches = pb.batches ∧ pb'.pendingMessages = pb.pendingMessages) ∧ pb'.batches = pb.batches := by
  have hpath : m.key.drop 33 = k := by rw [hk, keyOf_drop33]; rfl
  have hkey : k ∈ B.del.keys := (GMap.contains_iff_mem_keys _).mp hm
  unfold PB.applyDeleteMsg
  simp only [hpath]
  by_cases hval : pb.deletes.contains k = true
  · rw [if_pos hval]
    exact ⟨pb, false, rfl, h, fun _ => hval, fun i hi => hi, by simp, rfl⟩
  · rw [if_neg hval]
    have hcf : pb.deletes.contains k = false := Bool.eq_false_iff.mpr hval
    by_cases ht : tracked (B.pre k) = true
    · have hrem : B.rem pb (B.pre k) ≠ 0 := by
        unfold rem
        have := filter_pos hkey (p := fun y => B.pre y = B.pre k && !pb.deletes.contains y) (by simp [hcf])
        omega
      rw [h.hit hw (.inr hkey) ht hrem]
      simp only []
      refine ⟨_, true, rfl, ?_, ?_, ?_, fun _ => ⟨rfl, rfl⟩, rfl⟩
      · constructor
        · exact h.hash
        · exact h.number
        · exact h.weight
        · exact h.parent
        · exact h.values
        · exact h.inline
        · intro y hy
          simp only [GMap.contains_insert, Bool.or_eq_true, decide_eq_true_eq] at hy
          rcases hy with rfl | hy
          · exact .inr (.inl ⟨hm, ht⟩)
          · exact h.deletes y hy
        · intro y r h1 h2 h3
          simp only [GMap.contains_insert, h.inlineD y r h1 h2 h3, Bool.or_true]
        · intro x
          simp only [GMap.get?_insert]
          have hr : ∀ x, B.rem { pb with prefixes := pb.prefixes.insert (B.pre k) ((B.rem pb (B.pre k) : Int) - 1),
                                         deletes := pb.deletes.insert k () } x =
              if B.pre k = x then B.rem pb x - 1 else B.rem pb x := by
            intro x
            unfold rem
            simp only [GMap.contains_insert]
            by_cases hx : B.pre k = x
            · rw [if_pos hx]
              have := filter_remove (l := B.del.keys) B.del.nodup hkey
                (p := fun y => decide (B.pre y = x) && !pb.deletes.contains y)
                (q := fun y => decide (B.pre y = x) && !(decide (k = y) || pb.deletes.contains y)) (by simp [hx, hcf])
                (by intro y _; by_cases e : k = y
                    · subst e; simp
                    · have : y ≠ k := fun e' => e e'.symm
                      simp [e, this])
              omega
            · rw [if_neg hx]
              have : B.del.keys.filter (fun y => decide (B.pre y = x) && !(decide (k = y) || pb.deletes.contains y)) =
                  B.del.keys.filter (fun y => decide (B.pre y = x) && !pb.deletes.contains y) := by
                apply List.filter_congr
                intro y _
                by_cases e : k = y
                · subst e; simp [hx]
                · simp [e]
              rw [this]
          rw [hr]
          by_cases hx : B.pre k = x
          · subst hx
            simp only [if_true, ht, total_ne (.inr hkey), ne_eq, not_false_eq_true, and_self]
            congr 1; omega
          · simp only [hx, if_false]; exact h.prefixes x
        · exact h.pending
        · intro id bits hb
          obtain ⟨b1, b2, b3⟩ := h.bits id bits hb
          refine ⟨b1, b2, fun i r hi hr => (b3 i r hi hr).mono (fun _ _ hy _ => hy) ?_⟩
          intro y hy
          simp only [GMap.contains_insert, hy, Bool.or_true]
        · exact h.msgs
      · intro _; simp [GMap.contains_insert]
      · intro i hi
        cases i with
        | delete b y => intro hy; simp only [GMap.contains_insert, hi hy, Bool.or_true]
        | _ => exact hi
    · rw [h.miss hw (.inr hkey) ht]
      simp only []
      exact ⟨_, false, rfl, h.park hk (.del k _ hm) (.inr (.inr rfl)), fun h => absurd h ht, fun i hi => hi.park m,
        by simp, rfl⟩

/-- A sub-batch message. -/
theorem Inv.applySub (hC : C.Lawful) (hw : B.WF) {pb : PB} (h : Inv C B tracked pb) {m : RMsg} {id : Hash} {i : Nat}
    {r q : SubBatchRecord} (hk : m.key = keyOf C (.subMsg B.hash id (i : Int))) (hs : B.Sub id) (hr : (B.recs id)[i]? = some r)
    (hd : C.decSub m.value = some q) (hl : RecLike q r) :
    ∃ pb' b, pb.applySubBatchMsg C m = .ok (pb', b) ∧ Inv C B tracked pb' ∧ Took C B tracked pb' (.subMsg B.hash id (i : Int)) ∧
      (∀ j, Took C B tracked pb j → Took C B tracked pb' j) ∧
      (b = true → pb'.pendingMessages = pb.pendingMessages) ∧
      (∀ x, (pb'.batches.get? x).isSome = (pb.batches.get? x).isSome) ∧
      (b = true → ∃ bits, pb'.batches.get? id = some bits) := by
  have hlen : i < (B.recs id).length := (List.getElem?_eq_some_iff.mp hr).1
  have hidx : C.decInt (m.key.drop 65) = some (i : Int) := by
    rw [hk, keyOf_subMsg_idx]
    apply hC.int
    have := hw.size id hs
    constructor <;> omega
  unfold PB.applySubBatchMsg
  rw [if_neg (by rw [hk]; exact keyOf_subMsg_length C _ _ _)]
  have hid : bytesToHash ((m.key.drop 33).take 32) = id := by rw [hk]; exact keyOf_subMsg_id C _ _ _
  simp only [hid, hidx]
  cases hb : pb.batches.get? id with
  | none =>
    simp only []
    refine ⟨_, false, rfl, h.park hk (.subMsg id i r q _ hs hr hd hl) (.inl rfl), ?_, fun j hj => hj.park m, by simp, fun _ => rfl,
      by simp⟩
    intro _
    left
    exact ⟨hb, by rw [hk]; simp [GMap.contains_insert]⟩
  | some bits =>
    obtain ⟨b1, b2, b3⟩ := h.bits id bits hb
    simp only []
    rw [if_neg (by omega)]
    simp only [Int.toNat_natCast]
    by_cases hset : bits[i]? = some true
    · rw [if_pos hset]
      exact ⟨pb, false, rfl, h, fun _ => .inr ⟨bits, hb, by simpa using hset⟩, fun j hj => hj, by simp, fun _ => rfl, by simp⟩
    · rw [if_neg hset, hd]
      simp only []
      have hvals : ∀ k, (q.updates.entries.foldl (fun vs e => vs.insert e.1 e.2) pb.values).get? k =
          (r.updates.get? k).or (pb.values.get? k) := fun k => by
        rw [← hl.upd k]; exact GMap.get?_foldl_insert _ _ q.updates.nodup k
      have hdels : ∀ k, (q.delete.foldl (fun d k => d.insert k ()) pb.deletes).contains k = true ↔
          k ∈ r.delete ∨ pb.deletes.contains k = true := by
        intro k
        rw [← hl.del k]
        have := GMap.get?_foldl_insert_unit q.delete (fun k => k) pb.deletes k
        simpa using this
      have hrm := List.mem_of_getElem? hr
      have hupdc : ∀ k ∈ B.upd.keys, (q.updates.entries.foldl (fun vs e => vs.insert e.1 e.2) pb.values).contains k =
          pb.values.contains k := by
        intro k hk'
        unfold GMap.contains
        rw [hvals]
        cases hg : r.updates.get? k with
        | none => rfl
        | some v => exact absurd hk' (hw.subUpd id r k v hs hrm hg)
      have hdelc : ∀ k ∈ B.del.keys, (q.delete.foldl (fun d k => d.insert k ()) pb.deletes).contains k =
          pb.deletes.contains k := by
        intro k hk'
        rw [Bool.eq_iff_iff, hdels]
        constructor
        · rintro (h1 | h1)
          · exact absurd hk' (hw.subDel id r k hs hrm h1)
          · exact h1
        · exact .inr
      have hmono : ∀ {id' : Hash} {r' : SubBatchRecord}, B.Sub id' → r' ∈ B.recs id' → ∀ k v, pb.values.get? k = some v →
          r'.updates.get? k = some v →
          (q.updates.entries.foldl (fun vs e => vs.insert e.1 e.2) pb.values).get? k = some v := by
        intro id' r' hs' hr' k v hk' hv'
        rw [hvals]
        cases hg : r.updates.get? k with
        | none => exact hk'
        | some v' => rw [hw.subFun id r k v' id' r' v hs hrm hg hs' hr' hv']; rfl
      refine ⟨_, true, rfl, ?_, ?_, ?_, fun _ => rfl, ?_, ?_⟩
      · constructor
        · exact h.hash
        · exact h.number
        · exact h.weight
        · exact h.parent
        · intro k v hk'
          simp only [hvals] at hk'
          rw [Option.or_eq_some_iff] at hk'
          rcases hk' with h1 | ⟨_, h1⟩
          · exact .inr (.inr ⟨id, r, b1, hrm, h1⟩)
          · exact h.values k v h1
        · intro k r' h1 h2 h3
          simp only [hvals]
          cases hg : r.updates.get? k with
          | none => exact h.inline k r' h1 h2 h3
          | some v => exact absurd (hw.subInline id r k v r' hs hrm hg h1) h3
        · intro k hk'
          rcases (hdels k).mp hk' with h1 | h1
          · exact .inr (.inr ⟨id, r, b1, hrm, h1⟩)
          · exact h.deletes k h1
        · intro k r' h1 h2 h3
          exact (hdels k).mpr (.inr (h.inlineD k r' h1 h2 h3))
        · intro x
          have : B.rem { pb with
              deletes := q.delete.foldl (fun d k => d.insert k ()) pb.deletes
              values := q.updates.entries.foldl (fun vs e => vs.insert e.1 e.2) pb.values
              batches := pb.batches.insert id (setTrue bits i) } x = B.rem pb x := by
            unfold rem
            have e1 : B.upd.keys.filter (fun k => decide (B.pre k = x) &&
                !(q.updates.entries.foldl (fun vs e => vs.insert e.1 e.2) pb.values).contains k) =
                B.upd.keys.filter (fun k => decide (B.pre k = x) && !pb.values.contains k) := by
              apply List.filter_congr; intro k hk'; rw [hupdc k hk']
            have e2 : B.del.keys.filter (fun k => decide (B.pre k = x) &&
                !(q.delete.foldl (fun d k => d.insert k ()) pb.deletes).contains k) =
                B.del.keys.filter (fun k => decide (B.pre k = x) && !pb.deletes.contains k) := by
              apply List.filter_congr; intro k hk'; rw [hdelc k hk']
            simp only [e1, e2]
          rw [this]; exact h.prefixes x
        · intro x
          simp only [GMap.get?_insert]
          rw [h.pending x]
          by_cases hx : id = x
          · subst hx; simp [hb]
          · simp [hx]
        · intro x bs hbs
          simp only [GMap.get?_insert] at hbs
          have hHas : Has { pb with
              deletes := q.delete.foldl (fun d k => d.insert k ()) pb.deletes
              values := q.updates.entries.foldl (fun vs e => vs.insert e.1 e.2) pb.values
              batches := pb.batches.insert id (setTrue bits i) } r :=
            ⟨fun k v hk' => by simp only [hvals, hk']; rfl, fun k hk' => (hdels k).mpr (.inl hk')⟩
          split at hbs
          · rename_i e; subst e; cases hbs
            refine ⟨b1, by simpa [setTrue] using b2, ?_⟩
            intro j r' hj hr'
            by_cases hij : i = j
            · subst hij; rw [hr] at hr'; cases hr'; exact hHas
            · simp only [setTrue, List.getElem?_set_ne hij] at hj
              exact (b3 j r' hj hr').mono (hmono hs (List.mem_of_getElem? hr')) (fun k hk' => (hdels k).mpr (.inr hk'))
          · obtain ⟨c1, c2, c3⟩ := h.bits x bs hbs
            refine ⟨c1, c2, fun j r' hj hr' => (c3 j r' hj hr').mono (hmono c1.sub (List.mem_of_getElem? hr'))
              (fun k hk' => (hdels k).mpr (.inr hk'))⟩
        · exact h.msgs
      · intro _
        right
        exact ⟨setTrue bits i, by simp, by simp [setTrue, b2, hlen]⟩
      · intro j hj
        cases j with
        | update b y =>
          intro hy
          have := hj hy
          rw [GMap.contains_iff] at this
          obtain ⟨v, hv⟩ := this
          simp only [GMap.contains, hvals, hv]
          cases r.updates.get? y <;> rfl
        | delete b y => intro hy; exact (hdels y).mpr (.inr (hj hy))
        | subHeader b x =>
          intro hl
          obtain ⟨bs, hbs⟩ := hj hl
          simp only [GMap.get?_insert]
          by_cases hx : id = x
          · exact ⟨setTrue bits i, by simp [hx]⟩
          · exact ⟨bs, by simp [hx, hbs]⟩
        | subMsg b x n =>
          intro hl
          simp only [GMap.get?_insert]
          by_cases hx : id = x
          · subst hx
            rcases hj hl with ⟨h1, _⟩ | ⟨bs, h1, h2⟩
            · rw [hb] at h1; simp at h1
            · rw [hb] at h1; cases h1
              right
              refine ⟨setTrue bits i, by simp, ?_⟩
              by_cases hn : i = n.toNat
              · rw [← hn]; simp [setTrue, b2, hlen]
              · simp only [setTrue, List.getElem?_set_ne hn]; exact h2
          · simp only [hx, if_false]; exact hj hl
        | _ => exact hj
      · intro x
        simp only [GMap.get?_insert]
        by_cases hx : id = x
        · subst hx; simp [hb]
        · simp [hx]
      · intro _; exact ⟨setTrue bits i, by simp⟩

end
end Blk
end Verif
