import Verif.Proofs.Block
/-! One pending batch fed with the messages of its block: single messages, sub-batch headers, the header, completeness. -/
namespace Verif
open Spec Path

namespace Blk
variable {C : Codec} {B : Blk} {tracked : GoStr → Bool}

/-- The block's messages other than the header. -/
inductive Part (B : Blk) : MsgId → Prop
  | upd (k : GoStr) (h : k ∈ B.upd.keys) : Part B (.update B.hash k)
  | del (k : GoStr) (h : k ∈ B.del.keys) : Part B (.delete B.hash k)
  | subHeader (id : Hash) (hs : B.Sub id) : Part B (.subHeader B.hash id)
  | subMsg (id : Hash) (i : Nat) (hs : B.Sub id) (hr : i < (B.recs id).length) : Part B (.subMsg B.hash id (i : Int))

theorem Mine.part {i : MsgId} {v : Bytes} (h : Mine C B i v) (ht : i.type ≠ 0) : B.Part i := by
  cases h with
  | header v h => exact absurd rfl ht
  | upd k v h => exact .upd k (mem_keys_of_get h)
  | del k v h => exact .del k ((GMap.contains_iff_mem_keys _).mp h)
  | subHeader id v hs h => exact .subHeader id hs
  | subMsg id i r r' v hs hr h hl => exact .subMsg id i hs (List.getElem?_eq_some_iff.mp hr).1

theorem Part.inRange (hw : B.WF) {i : MsgId} (h : B.Part i) : i.InRange := by
  cases h with
  | subMsg id i hs hr =>
    have := hw.size id hs
    constructor <;> omega
  | _ => trivial

theorem Mine.inRange (hw : B.WF) {i : MsgId} {v : Bytes} (h : Mine C B i v) : i.InRange := by
  by_cases ht : i.type = 0
  · cases h <;> first | trivial | simp [MsgId.type] at ht
  · exact (h.part ht).inRange hw

theorem Mine.block {i : MsgId} {v : Bytes} (h : Mine C B i v) : i.block = B.hash := by cases h <;> rfl

theorem Inv.resumption {pb : PB} (h : Inv C B tracked pb) (r : GMap GoStr Int) :
    Inv C B tracked { pb with resumption := r } :=
  h.ofFields rfl rfl rfl rfl rfl rfl rfl rfl rfl h.msgs

theorem Took.congr {pb pb' : PB} {i : MsgId} (h1 : pb'.values = pb.values) (h2 : pb'.deletes = pb.deletes)
    (h3 : pb'.batches = pb.batches) (h4 : pb'.pendingMessages = pb.pendingMessages) (h : Took C B tracked pb i) :
    Took C B tracked pb' i := by
  cases i <;> simp only [Took, h1, h2, h3, h4] at h ⊢ <;> exact h

/-- Any message of the block. -/
theorem Inv.apply (hC : C.Lawful) (hw : B.WF) {pb : PB} (h : Inv C B tracked pb) {m : RMsg} {i : MsgId}
    (hk : m.key = keyOf C i) (hm : Mine C B i m.value) (ht : i.type = 2 ∨ i.type = 3 ∨ i.type = 4) :
    ∃ pb' b, pb.applyMessage C m = .ok (pb', b) ∧ Inv C B tracked pb' ∧ Took C B tracked pb' i ∧
      (∀ j, Took C B tracked pb j → Took C B tracked pb' j) ∧
      (∀ x, (pb'.batches.get? x).isSome = (pb.batches.get? x).isSome) ∧
      (b = true → ∀ h id n, i = .subMsg h id n → ∃ bits, pb'.batches.get? id = some bits) := by
  obtain ⟨res, hres⟩ := PB.updateResumption_eq pb m.source m.offset
  have h0 := h.resumption res
  have hT : ∀ j, Took C B tracked pb j → Took C B tracked { pb with resumption := res } j :=
    fun j hj => hj.congr rfl rfl rfl rfl
  have hkey : m.key = i.type :: (i.block.bytes ++ keyTail C i) := by rw [hk, keyOf_eq]
  have happ : pb.applyMessage C m = if i.type = SubBatchMsgType then { pb with resumption := res }.applySubBatchMsg C m
      else if i.type = BatchMsgType then { pb with resumption := res }.applyBatchMsg m
      else if i.type = BatchDeleteMsgType then { pb with resumption := res }.applyDeleteMsg m
      else .ok ({ pb with resumption := res }, true) := by
    unfold PB.applyMessage
    rw [hres]
    simp only []
    split
    · rename_i hnil; rw [hkey] at hnil; simp at hnil
    · rename_i t r hcons
      rw [hkey] at hcons
      simp only [List.cons.injEq] at hcons
      rw [← hcons.1]
  rw [happ]
  cases hm with
  | header v hd => simp [MsgId.type] at ht
  | subHeader id v hs hd => simp [MsgId.type] at ht
  | upd k v hv =>
    obtain ⟨pb', r, a1, a2, a3, a4, a5, a6⟩ := h0.applyUpd hw hk hv
    refine ⟨pb', r, by simpa [MsgId.type, SubBatchMsgType, BatchMsgType] using a1, a2, a3, fun j hj => a4 j (hT j hj), ?_, ?_⟩
    · intro x; rw [a6]
    · intro _ _ _ _ e; cases e
  | del k v hv =>
    obtain ⟨pb', r, a1, a2, a3, a4, a5, a6⟩ := h0.applyDel hw hk hv
    refine ⟨pb', r, by simpa [MsgId.type, SubBatchMsgType, BatchMsgType, BatchDeleteMsgType] using a1, a2, a3,
      fun j hj => a4 j (hT j hj), ?_, ?_⟩
    · intro x; rw [a6]
    · intro _ _ _ _ e; cases e
  | subMsg id n r q v hs hr hd hl =>
    obtain ⟨pb', b, a1, a2, a3, a4, a5, a6, a7⟩ := h0.applySub hC hw hk hs hr hd hl
    refine ⟨pb', b, by simpa [MsgId.type, SubBatchMsgType] using a1, a2, a3, fun j hj => a4 j (hT j hj), a6, ?_⟩
    intro hb _ _ _ e; cases e; exact a7 hb

/-- A message of unknown type only leaves its offset. -/
theorem Inv.applyOther {pb : PB} (h : Inv C B tracked pb) {m : RMsg} (hl : ¬ m.key.length < 33) (ht : ¬ m.key.headD 0 < 5) :
    ∃ pb', pb.applyMessage C m = .ok (pb', true) ∧ Inv C B tracked pb' ∧
      (∀ j, Took C B tracked pb j → Took C B tracked pb' j) := by
  obtain ⟨res, hres⟩ := PB.updateResumption_eq pb m.source m.offset
  refine ⟨{ pb with resumption := res }, ?_, h.resumption res, fun j hj => hj.congr rfl rfl rfl rfl⟩
  unfold PB.applyMessage
  rw [hres]
  simp only []
  split
  · rename_i hnil; rw [hnil] at hl; simp at hl
  · rename_i t r hcons
    rw [hcons] at ht
    simp only [List.headD_cons] at ht
    rw [if_neg (by rintro rfl; exact ht (by decide)), if_neg (by rintro rfl; exact ht (by decide)),
      if_neg (by rintro rfl; exact ht (by decide))]

/-- Like `Took` while the messages `l` set aside are being tried again. -/
def TookD (C : Codec) (B : Blk) (tracked : GoStr → Bool) (pb : PB) (l : List (Bytes × RMsg)) (i : MsgId) : Prop :=
  Took C B tracked pb i ∨ ((∃ e ∈ l, e.1 = keyOf C i) ∧ ∃ b id n, i = .subMsg b id n ∧ ∃ bits, pb.batches.get? id = some bits)

theorem mem_of_erase {K V : Type} [DecidableEq K] {m : GMap K V} {k : K} {e : K × V} (h : e ∈ (m.erase k).entries) :
    e ∈ m.entries := by
  have := (GMap.get?_eq_some_iff _).mpr h
  rw [GMap.get?_erase] at this
  split at this
  · simp at this
  · exact (GMap.get?_eq_some_iff _).mp this

/-- The loop over the messages set aside. -/
theorem Inv.drain (hC : C.Lawful) (hw : B.WF) {pb : PB} (h : Inv C B tracked pb) (l : List (Bytes × RMsg))
    (hl : ∀ e ∈ l, ∃ i, e.1 = keyOf C i ∧ e.2.key = keyOf C i ∧ Mine C B i e.2.value ∧ (i.type = 2 ∨ i.type = 3 ∨ i.type = 4)) :
    ∃ pb', PB.drain C pb l = .ok pb' ∧ Inv C B tracked pb' ∧
      (∀ j, B.Part j → TookD C B tracked pb l j → Took C B tracked pb' j) ∧
      (∀ x, (pb'.batches.get? x).isSome = (pb.batches.get? x).isSome) := by
  induction l generalizing pb with
  | nil =>
    refine ⟨pb, rfl, h, ?_, fun _ => rfl⟩
    rintro j _ (hj | ⟨⟨e, he, _⟩, _⟩)
    · exact hj
    · simp at he
  | cons e l ih =>
    obtain ⟨k, m⟩ := e
    obtain ⟨i, hk, hmk, hm, ht⟩ := hl (k, m) (by simp)
    simp only [] at hk hmk hm
    obtain ⟨pb1, b, a1, a2, a3, a4, a5, a6⟩ := h.apply hC hw hmk hm ht
    have hl' := fun e he => hl e (List.mem_cons_of_mem _ he)
    have hkeep : ∀ pb2 : PB, pb2.batches = pb1.batches → (∀ j, B.Part j → Took C B tracked pb1 j → Took C B tracked pb2 j) →
        ∀ j, B.Part j → TookD C B tracked pb ((k, m) :: l) j → TookD C B tracked pb2 l j := by
      intro pb2 hb2 hpb2 j hj hT
      rcases hT with hT | ⟨⟨e, he, hek⟩, b', id, n, rfl, bits, hbits⟩
      · exact .inl (hpb2 j hj (a4 j hT))
      · rcases List.mem_cons.mp he with rfl | he
        · simp only [] at hek
          have : i = .subMsg b' id n := keyOf_injective hC (hm.inRange hw) (hj.inRange hw) (by rw [← hk, hek])
          subst this
          exact .inl (hpb2 _ hj a3)
        · right
          refine ⟨⟨e, he, hek⟩, b', id, n, rfl, ?_⟩
          have := a5 id
          rw [hbits] at this
          rw [hb2]
          exact Option.isSome_iff_exists.mp (by rw [this]; rfl)
    simp only [PB.drain, a1]
    cases b with
    | true =>
      have hi2 : Inv C B tracked { pb1 with pendingMessages := pb1.pendingMessages.erase k } :=
        a2.ofFields rfl rfl rfl rfl rfl rfl rfl rfl rfl (fun e he => a2.msgs e (mem_of_erase he))
      obtain ⟨pb', b1, b2, b3, b4⟩ := ih hi2 hl'
      refine ⟨pb', b1, b2, ?_, fun x => (b4 x).trans (a5 x)⟩
      intro j hj hT
      refine b3 j hj (hkeep { pb1 with pendingMessages := pb1.pendingMessages.erase k } rfl ?_ j hj hT)
      intro j hj hT
      cases hj with
      | subMsg id n hs hr =>
        intro hlive
        rcases hT hlive with ⟨c1, c2⟩ | c
        · left
          refine ⟨c1, ?_⟩
          simp only [GMap.contains_erase, c2, Bool.and_true]
          rw [decide_eq_true_eq]
          intro hke
          have : i = .subMsg B.hash id (n : Int) :=
            keyOf_injective hC (hm.inRange hw) ((Part.subMsg id n hs hr).inRange hw) (by rw [← hk, hke])
          obtain ⟨bits, hbits⟩ := a6 rfl _ _ _ this
          rw [c1] at hbits; simp at hbits
        · exact .inr c
      | _ => exact hT
    | false =>
      obtain ⟨pb', b1, b2, b3, b4⟩ := ih a2 hl'
      exact ⟨pb', b1, b2, fun j hj hT => b3 j hj (hkeep pb1 rfl (fun _ _ h => h) j hj hT), fun x => (b4 x).trans (a5 x)⟩

/-- An expected sub-batch header. -/
theorem Inv.addSub (hC : C.Lawful) (hw : B.WF) {env : Env} {t : Nat} {pb : PB} (h : Inv C B tracked pb) (m : RMsg) {id : Hash}
    (hp : pb.pendingBatches.contains id = true) :
    ∃ pb', pb.addSubHeader C env t m id ((B.recs id).length : Int) = .ok pb' ∧ Inv C B tracked pb' ∧
      Took C B tracked pb' (.subHeader B.hash id) ∧
      (∀ j, B.Part j → Took C B tracked pb j → Took C B tracked pb' j) := by
  obtain ⟨hlive, hnone⟩ := (h.pending id).mp hp
  unfold PB.addSubHeader
  rw [if_neg (by omega)]
  simp only [Int.toNat_natCast]
  generalize hpb1 : ({ pb with pendingBatches := pb.pendingBatches.erase id,
                               batches := pb.batches.insert id (List.replicate (B.recs id).length false) } : PB) = pb1
  have h1 : Inv C B tracked pb1 := by
    subst hpb1
    constructor
    · exact h.hash
    · exact h.number
    · exact h.weight
    · exact h.parent
    · exact h.values
    · exact h.inline
    · exact h.deletes
    · exact h.inlineD
    · exact h.prefixes
    · intro x
      simp only [GMap.contains_erase, GMap.get?_insert]
      by_cases hx : id = x
      · subst hx; simp
      · simp only [hx, if_false, ne_eq, not_false_eq_true, decide_true, Bool.true_and]; exact h.pending x
    · intro x bits hb
      simp only [GMap.get?_insert] at hb
      split at hb
      · rename_i e; subst e; cases hb
        refine ⟨hlive, by simp, ?_⟩
        intro i r hi
        rw [List.getElem?_replicate] at hi
        split at hi <;> simp at hi
      · exact h.bits x bits hb
    · exact h.msgs
  have hT1 : ∀ j, B.Part j → Took C B tracked pb j → TookD C B tracked pb1 pb1.pendingMessages.entries j := by
    subst hpb1
    intro j hj hT
    cases hj with
    | upd k hk => exact .inl hT
    | del k hk => exact .inl hT
    | subHeader x hs =>
      left
      intro hl
      simp only [GMap.get?_insert]
      split
      · exact ⟨_, rfl⟩
      · exact hT hl
    | subMsg x n hs hr =>
      by_cases hl : B.Live tracked x
      · rcases hT hl with ⟨c1, c2⟩ | ⟨bits, c1, c2⟩
        · by_cases hx : id = x
          · subst hx
            right
            obtain ⟨v, hv⟩ := (GMap.contains_iff _).mp c2
            exact ⟨⟨_, (GMap.get?_eq_some_iff _).mp hv, rfl⟩, _, _, _, rfl, _, by simp only [GMap.get?_insert, if_true]; rfl⟩
          · left
            intro _
            simp only [GMap.get?_insert, hx, if_false]
            exact .inl ⟨c1, c2⟩
        · left
          intro _
          right
          have hx : id ≠ x := by rintro rfl; rw [hnone] at c1; simp at c1
          exact ⟨bits, by simp only [GMap.get?_insert, hx, if_false]; exact c1, c2⟩
      · exact .inl (fun h => absurd h hl)
  have hb1 : ∃ bits, pb1.batches.get? id = some bits := by subst hpb1; exact ⟨_, by simp only [GMap.get?_insert, if_true]; rfl⟩
  obtain ⟨res, hres⟩ := PB.updateResumption_eq pb1 m.source m.offset
  rw [hres]
  have h2 := h1.resumption res
  obtain ⟨pb', b1, b2, b3, b4⟩ := h2.drain hC hw (env.order.ord (2 * t) pb1.pendingMessages.entries)
    (fun e he => h1.msgs e ((env.order.perm _ _).mem_iff.mp he))
  refine ⟨pb', b1, b2, ?_, ?_⟩
  · intro _
    have := b4 id
    obtain ⟨bits, hb⟩ := hb1
    simp only [hb] at this
    exact Option.isSome_iff_exists.mp (by rw [this]; rfl)
  · intro j hj hT
    refine b3 j hj ?_
    rcases hT1 j hj hT with h' | ⟨⟨e, he, hek⟩, h'⟩
    · exact .inl (h'.congr rfl rfl rfl rfl)
    · exact .inr ⟨⟨e, (env.order.perm _ _).mem_iff.mpr he, hek⟩, h'⟩

/-- The pending batch made from the block's header. -/
theorem Inv.header (hw : B.WF) {b : Batch} (hl : HdrLike b B.hdr) (env : Env) (mp : MP) (m : RMsg) : Inv C B mp.tracked (headerPB env mp m B.hash b) := by
  obtain ⟨g1, g2, g3, g4⟩ := headerPB_get env mp m B.hash b
  simp only [hl.entry] at g1 g2 g3 g4
  have hh := headerPB_head env mp m B.hash b
  have hn := newPB_head mp B.hash b m
  have hf := headerPB_fields env mp m B.hash b
  have hnov : ∀ k ∈ B.upd.keys, (headerPB env mp m B.hash b).values.contains k = false := by
    intro k hk
    rw [GMap.contains_eq_false, g1]
    cases hg : B.hdr.updates.get? k with
    | none => rfl
    | some r =>
      simp only []
      rw [if_neg]
      rintro ⟨_, hv⟩
      exact hw.inlineUpd k r hg hv hk
  have hnod : ∀ k ∈ B.del.keys, (headerPB env mp m B.hash b).deletes.contains k = false := by
    intro k hk
    rw [Bool.eq_false_iff]
    intro hc
    obtain ⟨r, h1, _, h2⟩ := (g2 k).mp hc
    exact hw.inlineDel k r h1 h2 hk
  constructor
  · exact hh.hash.trans hn.1
  · exact hh.number.trans (hn.2.1.trans hl.number)
  · exact hh.weight.trans (hn.2.2.2.1.trans (by rw [hl.weight]))
  · exact hh.parentHash.trans (hn.2.2.1.trans hl.parent)
  · intro k v hk
    rw [g1] at hk
    split at hk
    · rename_i r hr
      split at hk
      · rename_i hc; cases hk; exact .inl ⟨r, hr, hc.1, rfl, hc.2⟩
      · simp at hk
    · simp at hk
  · intro k r h1 h2 h3; rw [g1, h1]; simp [h2, h3]
  · intro k hk
    exact .inl ((g2 k).mp hk)
  · intro k r h1 h2 h3; exact (g2 k).mpr ⟨r, h1, h2, h3⟩
  · intro x
    have hrem : B.rem (headerPB env mp m B.hash b) x = B.total x := by
      unfold rem total
      congr 2
      · apply List.filter_congr; intro k hk; rw [hnov k hk]; simp
      · apply List.filter_congr; intro k hk; rw [hnod k hk]; simp
    rw [g3, hrem]
    cases hg : B.hdr.updates.get? x with
    | some r =>
      simp only [hw.count x r hg]
      by_cases hz : B.total x = 0
      · simp [hz]
      · have : (B.total x : Int) ≠ 0 := by omega
        simp [hz]
    | none =>
      simp only []
      rw [if_neg]
      rintro ⟨_, hz⟩
      apply hz
      unfold total
      have e1 : B.upd.keys.filter (fun k => decide (B.pre k = x)) = [] := by
        rw [List.filter_eq_nil_iff]; intro y hy hyx
        obtain ⟨r, hr⟩ := hw.counted y (.inl hy)
        have : B.pre y = x := by simpa using hyx
        rw [this, hg] at hr; simp at hr
      have e2 : B.del.keys.filter (fun k => decide (B.pre k = x)) = [] := by
        rw [List.filter_eq_nil_iff]; intro y hy hyx
        obtain ⟨r, hr⟩ := hw.counted y (.inr hy)
        have : B.pre y = x := by simpa using hyx
        rw [this, hg] at hr; simp at hr
      rw [e1, e2]; rfl
  · intro id
    rw [g4 id, hf.1]
    constructor
    · intro h; exact ⟨h, rfl⟩
    · intro h; exact h.1
  · intro id bits hb
    rw [hf.1] at hb
    simp [GMap.get?, GMap.empty, GMap.look] at hb
  · intro e he
    rw [hf.2.1] at he
    simp [GMap.empty] at he

/-- A complete block has exactly the expected content. -/
theorem Inv.exact (hw : B.WF) {pb : PB} (h : Inv C B tracked pb) (hr : pb.ready = true) :
    (∀ k v, pb.values.get? k = some v ↔ B.ExpV tracked k v) ∧ (∀ k, pb.deletes.contains k = true ↔ B.ExpD tracked k) := by
  unfold PB.ready at hr
  simp only [Bool.and_eq_true, List.isEmpty_iff, List.all_eq_true] at hr
  obtain ⟨⟨r1, r2⟩, r3⟩ := hr
  have hrec : ∀ id r, B.Live tracked id → r ∈ B.recs id → Has pb r := by
    intro id r hl hm
    cases hb : pb.batches.get? id with
    | none =>
      have := (h.pending id).mpr ⟨hl, hb⟩
      rw [GMap.contains_iff] at this
      obtain ⟨v, hv⟩ := this
      rw [get_of_entries_nil r1] at hv; simp at hv
    | some bits =>
      obtain ⟨b1, b2, b3⟩ := h.bits id bits hb
      obtain ⟨i, hi, rfl⟩ := List.getElem_of_mem hm
      refine b3 i _ ?_ (List.getElem?_eq_getElem hi)
      have := r3 (id, bits) ((GMap.get?_eq_some_iff _).mp hb)
      have hlt : i < bits.length := by omega
      rw [List.getElem?_eq_getElem hlt]
      simp only [] at this
      have := this _ (List.getElem_mem hlt)
      simpa using this
  have hrem : ∀ x, tracked x = true → B.rem pb x = 0 := by
    intro x hx
    by_cases hz : B.total x = 0
    · unfold total at hz; unfold rem
      have h1 : (B.upd.keys.filter (fun k => B.pre k = x && !pb.values.contains k)).length ≤
          (B.upd.keys.filter (fun k => B.pre k = x)).length := by
        rw [← List.countP_eq_length_filter, ← List.countP_eq_length_filter]
        apply List.countP_mono_left
        intro y _ hy; simp at hy ⊢; exact hy.1
      have h2 : (B.del.keys.filter (fun k => B.pre k = x && !pb.deletes.contains k)).length ≤
          (B.del.keys.filter (fun k => B.pre k = x)).length := by
        rw [← List.countP_eq_length_filter, ← List.countP_eq_length_filter]
        apply List.countP_mono_left
        intro y _ hy; simp at hy ⊢; exact hy.1
      omega
    · have := h.prefixes x
      rw [if_pos ⟨hx, hz⟩] at this
      have := r2 _ ((GMap.get?_eq_some_iff _).mp this)
      simp at this
      omega
  refine ⟨fun k v => ⟨h.values k v, ?_⟩, fun k => ⟨h.deletes k, ?_⟩⟩
  · rintro (⟨r, h1, h2, h3, h4⟩ | ⟨h1, h2⟩ | ⟨id, r, h1, h2, h3⟩)
    · rw [← h3] at h4 ⊢; exact h.inline k r h1 h2 h4
    · have h0 := hrem _ h2
      have hk := mem_keys_of_get h1
      have hc : pb.values.contains k = true := by
        rw [← Bool.not_eq_false]
        intro hc
        unfold rem at h0
        have := filter_pos hk (p := fun y => B.pre y = B.pre k && !pb.values.contains y) (by simp [hc])
        omega
      obtain ⟨v', hv'⟩ := (GMap.contains_iff _).mp hc
      have := (h.upd_value hw hk hv').2.1
      rw [h1] at this; cases this; exact hv'
    · exact (hrec id r h1 h2).1 k v h3
  · rintro (⟨r, h1, h2, h3⟩ | ⟨h1, h2⟩ | ⟨id, r, h1, h2, h3⟩)
    · exact h.inlineD k r h1 h2 h3
    · have h0 := hrem _ h2
      have hk := (GMap.contains_iff_mem_keys _).mp h1
      rw [← Bool.not_eq_false]
      intro hc
      unfold rem at h0
      have := filter_pos hk (p := fun y => B.pre y = B.pre k && !pb.deletes.contains y) (by simp [hc])
      omega
    · exact (hrec id r h1 h2).2 k h3

/-- A block that has taken all its messages is complete. -/
theorem Inv.complete (_hw : B.WF) {pb : PB} (h : Inv C B tracked pb) (hT : ∀ i, B.Part i → Took C B tracked pb i) :
    pb.ready = true := by
  unfold PB.ready
  simp only [Bool.and_eq_true, List.isEmpty_iff, List.all_eq_true]
  refine ⟨⟨entries_nil_of_get fun id => ?_, ?_⟩, ?_⟩
  · rw [← GMap.contains_eq_false, Bool.eq_false_iff]
    intro hc
    obtain ⟨hl, hn⟩ := (h.pending id).mp hc
    obtain ⟨bits, hb⟩ := hT _ (.subHeader id hl.sub) hl
    rw [hn] at hb; simp at hb
  · intro e he
    have hg := (GMap.get?_eq_some_iff _).mpr he
    rw [h.prefixes] at hg
    split at hg
    · rename_i hc
      simp only [Option.some.injEq] at hg
      have hz : B.rem pb e.1 = 0 := by
        unfold rem
        have e1 : B.upd.keys.filter (fun k => B.pre k = e.1 && !pb.values.contains k) = [] := by
          rw [List.filter_eq_nil_iff]
          intro y hy hp
          simp only [Bool.and_eq_true, decide_eq_true_eq, Bool.not_eq_true'] at hp
          have := hT _ (.upd y hy) (by rw [hp.1]; exact hc.1)
          rw [hp.2] at this; simp at this
        have e2 : B.del.keys.filter (fun k => B.pre k = e.1 && !pb.deletes.contains k) = [] := by
          rw [List.filter_eq_nil_iff]
          intro y hy hp
          simp only [Bool.and_eq_true, decide_eq_true_eq, Bool.not_eq_true'] at hp
          have := hT _ (.del y hy) (by rw [hp.1]; exact hc.1)
          rw [hp.2] at this; simp at this
        rw [e1, e2]; rfl
      rw [← hg, hz]; simp
    · simp at hg
  · intro e he
    obtain ⟨id, bits⟩ := e
    have hg := (GMap.get?_eq_some_iff _).mpr he
    obtain ⟨b1, b2, b3⟩ := h.bits id bits hg
    intro b hb
    obtain ⟨i, hi, rfl⟩ := List.getElem_of_mem hb
    simp only [] at hi
    have hlt : i < (B.recs id).length := by omega
    rcases hT _ (.subMsg id i b1.sub hlt) b1 with ⟨c1, _⟩ | ⟨bits', c1, c2⟩
    · rw [hg] at c1; simp at c1
    · rw [hg] at c1; cases c1
      simp only [Int.toNat_natCast] at c2
      rw [List.getElem?_eq_getElem hi] at c2
      simpa using c2

end Blk
end Verif
