import Verif.Spec.Moment
import Verif.Props.Endless
import Verif.Props.OrderingGaps
/-!
# C147: the moment of emission

A block is emitted with the message that completes it. So the order of the emitted blocks is known from the messages received, and
what C39 says of the order of blocks becomes a statement about messages and the whole consumer.
-/
namespace Verif
open Spec Path

variable {C : Codec} {env : Env} {o : MapOrder}

section
variable {schema : List RegexpPair} {a : BlockArgs} {subs : Hash → SubArgs} {ms : List Msg} {b : Batch} {tracked : GoStr → Bool}

theorem keyOf_head (C : Codec) (i : MsgId) : (keyOf C i).head? = some i.type := by rw [keyOf_eq]; rfl

theorem bytes_inj {x y : Hash} (h : x.bytes = y.bytes) : x = y := by
  rw [← bytesToHash_bytes x, h, bytesToHash_bytes]

/-- What the consumer waits for, in terms of the identities of the messages. -/
theorem matters_iff (hb : HeaderOf schema a b) {i : MsgId} (hm : (blkOf schema a subs b).Part i ∨ i = .batch a.hash) :
    Matters tracked schema a (keyOf C i) ↔ Blk.Needed (blkOf schema a subs b) tracked i := by
  unfold Matters
  rw [keyOf_head, keyOf_drop33]
  have routed : ∀ k, ¬ Unrouted schema k →
      ((∃ pre topic, Routes schema k pre topic ∧ tracked pre = true) ↔ tracked ((blkOf schema a subs b).pre k) = true) := by
    intro k hu
    constructor
    · rintro ⟨pre, topic, h1, h2⟩
      rw [pre_eq h1]; exact h2
    · intro h
      obtain ⟨t, ht⟩ := pre_routes (a := a) (subs := subs) (b := b) hu
      exact ⟨_, t, ht, h⟩
  have sub : ∀ (id : Hash) (t : Bytes), (∃ path id', a.batches.get? path = some id' ∧ (id.bytes ++ t).take 32 = id'.bytes ∧ tracked path = true) ↔
      (blkOf schema a subs b).Live tracked id := by
    intro id t
    have : (id.bytes ++ t).take 32 = id.bytes := by simp [← id.len]
    rw [this, hb.live]
    constructor
    · rintro ⟨path, id', h1, h2, h3⟩
      exact ⟨path, by rw [h1, bytes_inj h2], h3⟩
    · rintro ⟨path, h1, h2⟩
      exact ⟨path, id, h1, rfl, h2⟩
  rcases hm with hm | rfl
  · cases hm with
    | upd k h =>
      have := routed k (upd_keys.mp h).2
      simp only [MsgId.type, keyTail, Blk.Needed, BatchType, BatchMsgType, BatchDeleteMsgType, SubBatchHeaderType, SubBatchMsgType]
      rw [← this]
      simp
    | del k h =>
      have := routed k (del_keys.mp h).2
      simp only [MsgId.type, keyTail, Blk.Needed, BatchType, BatchMsgType, BatchDeleteMsgType, SubBatchHeaderType, SubBatchMsgType]
      rw [← this]
      simp
    | subHeader id hs =>
      have := sub id []
      simp only [MsgId.type, keyTail, Blk.Needed, BatchType, BatchMsgType, BatchDeleteMsgType, SubBatchHeaderType, SubBatchMsgType]
      rw [← this]
      simp
    | subMsg id n hs hr =>
      have := sub id (C.encInt n)
      simp only [MsgId.type, keyTail, Blk.Needed, BatchType, BatchMsgType, BatchDeleteMsgType, SubBatchHeaderType, SubBatchMsgType]
      rw [← this]
      simp
  · simp [MsgId.type, Blk.Needed, BatchType]

theorem Bridge.part (hb : Bridge C schema a subs ms b) {x : Msg} (hx : x ∈ ms) :
    ∃ i, x.key = keyOf C i ∧ ((blkOf schema a subs b).Part i ∨ i = .batch a.hash) := by
  obtain ⟨i, h1, h2⟩ := hb.mine x hx
  refine ⟨i, h1, ?_⟩
  by_cases ht : i.type = 0
  · right
    generalize x.value = v at h2
    cases h2 <;> first | rfl | simp [MsgId.type] at ht
  · exact .inl (h2.part ht)

end

/-- What has been emitted was complete. -/
theorem emitted_there (hC : C.Lawful) {schema : List RegexpPair} {a : BlockArgs} {subs : Hash → SubArgs} {ms : List Msg}
    (hp : Produced C schema a subs ms) (hw : WellFormed schema a subs) {cfg : Config} {mp mp' : MP} {received : List RMsg}
    (hn : newMP cfg = .ok mp) (hf : Faithful a.hash ms received) (hr : mp.run C env received = .ok mp')
    (he : ∃ pb ∈ mp'.emitted, pb.hash = a.hash) : AllThere cfg.tracked schema a ms received := by
  obtain ⟨b, hb⟩ := bridge hC hp hw
  obtain ⟨pb, hpb, hh⟩ := he
  intro x hx hm
  obtain ⟨es, he, hes⟩ := (hb.sound hC hn hf hr).2.emitted
  simp only [List.nil_append] at he
  have hpb' := hpb
  rw [he] at hpb'
  obtain ⟨h1, h2⟩ := hes pb hpb'
  have hinv := h1 _ (by rw [hh]; exact Blk.only_self _)
  have hprov := ((prov_parts C env (· ∈ received) (run_ok_len hr) cfg.tracked cfg.frp).emitted hn (by intro s o hs; simp at hs)
    (fun m hm => hm) hr pb hpb).1
  rw [hh] at hprov
  obtain ⟨i, e1, e2⟩ := hb.part hx
  rw [e1] at hm
  obtain ⟨m, hm1, hm2, _⟩ := recorded_needed hC hb hf hinv h2 hprov i (e2.imp (fun h => ⟨h, (matters_iff hb.hdr e2).mp hm⟩) id)
  exact ⟨m, hm1, hm2.trans e1.symm⟩

/-- **C147**, when: a consumer has emitted the block exactly if all messages of the block that matter under its filter have been received. It waits for
no others, and for all of these, in whatever order they come and whatever else comes. -/
theorem C147_when (hC : C.Lawful) {schema : List RegexpPair} {a : BlockArgs} {subs : Hash → SubArgs} {ms : List Msg}
    (hp : Produced C schema a subs ms) (hw : WellFormed schema a subs) {cfg : Config} {mp mp' : MP} {received : List RMsg}
    (hn : newMP cfg = .ok mp) (hk : Keeps env a.number) (hf : Faithful a.hash ms received) (hr : mp.run C env received = .ok mp') :
    (∃ pb ∈ mp'.emitted, pb.hash = a.hash) ↔ AllThere cfg.tracked schema a ms received := by
  obtain ⟨b, hb⟩ := bridge hC hp hw
  constructor
  · exact emitted_there hC hp hw hn hf hr
  · intro ha
    have h0 := newMP_forgets hn a.hash
    have hk' : Keeps env (blkOf schema a subs b).hdr.number := by simp only [blkOf]; rw [hb.hdr.number]; exact hk
    obtain ⟨es, pb, g1, g2, g3⟩ := Blk.deliver (tracked := cfg.tracked) (frp := cfg.frp) (E0 := []) hC hb.wf hk' (Base.newMP hn)
      (LiftInv.newMP hn trivial) (newMP_calm _ hn) h0.1 h0.2 (fun m hm => hb.own hf hm) (by
        intro j hj
        have hj' : (blkOf schema a subs b).Part j ∨ j = .batch a.hash := hj.imp And.left id
        obtain ⟨x, hx, hxk⟩ := hb.all j hj'
        obtain ⟨m, hm, e⟩ := ha x hx (by
          rw [hxk, matters_iff hb.hdr hj']
          rcases hj with h | rfl
          · exact h.2
          · trivial)
        exact ⟨m, hm, e.trans hxk⟩) hr
    exact ⟨pb, by rw [g1]; simp [g2], g3⟩


/-! ## The order of the blocks -/

/-- The block is complete for the consumer. -/
def SentBlock.CompleteIn (tracked : GoStr → Bool) (s : SentBlock) (received : List RMsg) : Prop :=
  AllThere tracked s.schema s.args s.msgs received

/-- The order in which the messages complete the blocks: each message completes no further block, or one. -/
inductive Spec.Completions (tracked : GoStr → Bool) (blocks : List SentBlock) : List RMsg → List SentBlock → Prop
  | nil : Completions tracked blocks [] []
  | none {l : List RMsg} {order : List SentBlock} {m : RMsg} : Completions tracked blocks l order →
      (∀ s ∈ blocks, s ∉ order → ¬ s.CompleteIn tracked (l ++ [m])) → Completions tracked blocks (l ++ [m]) order
  | one {l : List RMsg} {order : List SentBlock} {m : RMsg} {s : SentBlock} : Completions tracked blocks l order → s ∈ blocks → s ∉ order →
      s.CompleteIn tracked (l ++ [m]) → (∀ x ∈ blocks, x ∉ order → x.CompleteIn tracked (l ++ [m]) → x = s) →
      Completions tracked blocks (l ++ [m]) (order ++ [s])

section
variable {cfg : Config} {tree : List SentBlock} {received : List RMsg} {tracked : GoStr → Bool}

theorem SentBlock.CompleteIn.mono {s : SentBlock} {l l' : List RMsg} (h : s.CompleteIn tracked l) (hl : ∀ m ∈ l, m ∈ l') : s.CompleteIn tracked l' := by
  intro x hx hm
  obtain ⟨m, h1, h2⟩ := h x hx hm
  exact ⟨m, hl m h1, h2⟩

theorem Spec.Completions.mem {l : List RMsg} {order : List SentBlock} (h : Completions tracked tree l order) :
    ∀ s ∈ order, s ∈ tree ∧ s.CompleteIn tracked l := by
  induction h with
  | nil => simp
  | none _ _ ih => exact fun s hs => ⟨(ih s hs).1, (ih s hs).2.mono (by simp +contextual)⟩
  | one _ h1 _ h3 _ ih =>
    intro s hs
    rcases List.mem_append.mp hs with hs | hs
    · exact ⟨(ih s hs).1, (ih s hs).2.mono (by simp +contextual)⟩
    · rw [List.mem_singleton.mp hs]; exact ⟨h1, h3⟩

/-- A correct block is not complete before its header is there. -/
theorem SentBlock.Correct.header (hC : C.Lawful) {s : SentBlock} (hs : s.Correct C) {l : List RMsg} (h : s.CompleteIn tracked l) :
    ∃ m ∈ l, m.key = keyOf C (.batch s.args.hash) := by
  obtain ⟨b, hb⟩ := bridge hC hs.1 hs.2
  obtain ⟨x, hx, e⟩ := hb.all (.batch s.args.hash) (.inr rfl)
  obtain ⟨m, hm, e'⟩ := h x hx (by rw [e]; exact .inl (keyOf_head C _))
  exact ⟨m, hm, e'.trans e⟩

theorem Spec.Completions.all (hC : C.Lawful) (hc : ∀ s ∈ tree, s.Correct C) {l : List RMsg} {order : List SentBlock}
    (h : Completions tracked tree l order) : ∀ s ∈ tree, s.CompleteIn tracked l → s ∈ order := by
  cases h with
  | nil =>
    intro s hs h
    obtain ⟨m, hm, _⟩ := (hc s hs).header hC h
    simp at hm
  | none _ h2 => exact fun s hs h => Classical.byContradiction fun hn => h2 s hs hn h
  | @one _ order' _ _ _ _ _ _ h4 =>
    intro s hs h
    by_cases hn : s ∈ order'
    · exact List.mem_append_left _ hn
    · simp [h4 s hs hn h]

theorem first_repeat {l : List Hash} (h : ¬ l.Nodup) : ∃ a x mid b, l = a ++ x :: (mid ++ x :: b) ∧ (x :: mid).Nodup := by
  induction l using snoc_induction with
  | nil => simp at h
  | snoc l y ih =>
    by_cases hl : l.Nodup
    · have hy : y ∈ l := by
        refine Classical.byContradiction fun hn => h ?_
        rw [List.nodup_append]
        refine ⟨hl, by simp, ?_⟩
        intro a ha b hb e
        rw [List.mem_singleton.mp hb] at e
        exact hn (e ▸ ha)
      obtain ⟨a, m, e⟩ := List.append_of_mem hy
      refine ⟨a, y, m, [], by rw [e]; simp, ?_⟩
      rw [e] at hl
      exact (List.nodup_append.mp hl).2.1
    · obtain ⟨a, x, m, b, e, hx⟩ := ih hl
      exact ⟨a, x, m, b ++ [y], by rw [e]; simp, hx⟩

/-- No block is emitted twice when there are not more blocks than the window holds. -/
theorem Supplied.emittedOnce (h : Supplied C tree received) (hC : C.Lawful) (hwin : (tree.length : Int) ≤ 2 * cfg.reorgThreshold) {mp0 mp : MP}
    (hn : newMP cfg = .ok mp0) {l : List RMsg} (hl : ∀ m ∈ l, m ∈ received) (hr : mp0.run C env l = .ok mp) : (hashes mp.emitted).Nodup := by
  have h0 : mp0.emitted = [] ∧ mp0.reorgThreshold = cfg.reorgThreshold := by
    unfold newMP at hn
    split at hn
    · cases hn
    · cases hn; exact ⟨rfl, rfl⟩
  refine Classical.byContradiction fun hd => ?_
  obtain ⟨a, x, mid, b, e, hx⟩ := first_repeat hd
  obtain ⟨e1, r1, e0, rfl, e2⟩ := List.map_eq_append_iff.mp e
  obtain ⟨p, r2, rfl, rfl, e3⟩ := List.map_eq_cons_iff.mp e2
  obtain ⟨m', r3, rfl, rfl, e4⟩ := List.map_eq_append_iff.mp e3
  obtain ⟨q, r4, rfl, hpq, rfl⟩ := List.map_eq_cons_iff.mp e4
  have := C03_at_most_once ⟨cfg, mp0, [], hn, rfl⟩ hr (e1 := e1) (pb1 := p) (mid := m') (pb2 := q) (e3 := r4)
    (by rw [e0, h0.1]; rfl) hpq.symm
  rcases this with ⟨m, hm, hR⟩ | this
  · refine h.types hC m (hl m hm) ?_
    unfold IsReorg at hR
    cases hk : m.key with
    | nil => rw [hk] at hR; simp at hR
    | cons a r => rw [hk] at hR; simpa [ReorgType] using hR
  · rw [h0.2] at this
    have h1 := List.countP_le_length (p := fun pb : PB => decide (pb.hash ≠ p.hash)) (l := m')
    have h2 : (p.hash :: m'.map PB.hash).length ≤ (tree.map (·.args.hash)).length := by
      refine nodup_length_le hx ?_
      intro y hy
      have : ∃ pb ∈ mp.emitted, pb.hash = y := by
        rw [e0]
        rcases List.mem_cons.mp hy with rfl | hy
        · exact ⟨p, by simp, rfl⟩
        · obtain ⟨z, hz, rfl⟩ := List.mem_map.mp hy
          exact ⟨z, by simp [hz], rfl⟩
      obtain ⟨pb, hpb, rfl⟩ := this
      obtain ⟨s, hs, hex⟩ := h.emitted hC hn hl hr hpb
      exact List.mem_map.mpr ⟨s, hs, hex.hash.symm⟩
    simp at h2
    omega

/-- What a message makes the consumer emit: a block it completes. -/
theorem Supplied.emittedBy (h : Supplied C tree received) (hC : C.Lawful) (hwin : (tree.length : Int) ≤ 2 * cfg.reorgThreshold) {mp0 mp1 mp : MP}
    (hn : newMP cfg = .ok mp0) {l : List RMsg} {m : RMsg} (hl : ∀ x ∈ l ++ [m], x ∈ received) (hr1 : mp0.run C env l = .ok mp1)
    (hr : mp0.run C env (l ++ [m]) = .ok mp) {order : List SentBlock} (hE : mp1.emitted.map headPart = order.map bare) :
    ∃ es, mp.emitted = mp1.emitted ++ es ∧ (hashes es).Nodup ∧
      ∀ pb ∈ es, ∃ s ∈ tree, HeadOf s pb ∧ s ∉ order ∧ s.CompleteIn cfg.tracked (l ++ [m]) := by
  obtain ⟨es, hes⟩ := emitted_grows hn hr1 hr
  have hnd := h.emittedOnce hC hwin hn hl hr
  rw [hes] at hnd
  unfold hashes at hnd
  rw [List.map_append, List.nodup_append] at hnd
  refine ⟨es, hes, hnd.2.1, ?_⟩
  intro pb hpb
  have hpb' : pb ∈ mp.emitted := by rw [hes]; simp [hpb]
  obtain ⟨s, hs, hex⟩ := h.emitted hC hn hl hr hpb'
  refine ⟨s, hs, ⟨hex.number, hex.weight, hex.hash, hex.parent⟩, ?_, ?_⟩
  · intro hso
    have : bare s ∈ mp1.emitted.map headPart := by rw [hE]; exact List.mem_map.mpr ⟨s, hso, rfl⟩
    obtain ⟨z, hz, e⟩ := List.mem_map.mp this
    have e' : z.hash = s.args.hash := congrArg PB.hash e
    exact hnd.2.2 _ (List.mem_map.mpr ⟨z, hz, rfl⟩) _ (List.mem_map.mpr ⟨pb, hpb, rfl⟩) (e'.trans hex.hash.symm)
  · exact emitted_there hC (h.correct s hs).1 (h.correct s hs).2 hn
      (faithful_of_blocks hC h.correct h.inj (fun m hm => .inl (h.only m (hl m hm))) hs) hr ⟨pb, hpb', hex.hash⟩

/-- The blocks emitted, when nothing is dropped. -/
theorem Supplied.completed (h : Supplied C tree received) (hC : C.Lawful) (hwin : (tree.length : Int) ≤ 2 * cfg.reorgThreshold) {mp0 : MP}
    (hn : newMP cfg = .ok mp0) (hk : ∀ s ∈ tree, Keeps env s.args.number) {l : List RMsg} {order : List SentBlock}
    (hc : Completions cfg.tracked tree l order) : (∀ m ∈ l, m ∈ received) → ∀ {mp : MP}, mp0.run C env l = .ok mp →
      mp.emitted.map headPart = order.map bare := by
  induction hc with
  | nil =>
    intro _ mp hr
    cases hr
    unfold newMP at hn
    split at hn
    · cases hn
    · cases hn; rfl
  | @none l order m hc h1 ih =>
    intro hl mp hr
    obtain ⟨mp1, hr1, hr2⟩ := run_append hr
    have hE := ih (fun x hx => hl x (by simp [hx])) hr1
    obtain ⟨es, e, _, he⟩ := h.emittedBy hC hwin hn hl hr1 hr hE
    have : es = [] := by
      rcases es with _ | ⟨pb, es⟩
      · rfl
      · obtain ⟨s, hs, _, hso, hcs⟩ := he pb (by simp)
        exact (h1 s hs hso hcs).elim
    rw [e, this, List.append_nil]; exact hE
  | @one l order m s hc h1 h2 h3 h4 ih =>
    intro hl mp hr
    obtain ⟨mp1, hr1, hr2⟩ := run_append hr
    have hE := ih (fun x hx => hl x (by simp [hx])) hr1
    obtain ⟨es, e, hnd, he⟩ := h.emittedBy hC hwin hn hl hr1 hr hE
    have hall : ∀ pb ∈ es, HeadOf s pb := by
      intro pb hpb
      obtain ⟨s', hs', hh, hso, hcs⟩ := he pb hpb
      rw [← h4 s' hs' hso hcs]; exact hh
    obtain ⟨pb, hpb, hph⟩ := (C147_when hC (h.correct s h1).1 (h.correct s h1).2 hn (hk s h1)
      (faithful_of_blocks hC h.correct h.inj (fun m hm => .inl (h.only m (hl m hm))) h1) hr).mpr h3
    rw [e] at hpb
    have hpb' : pb ∈ es := by
      rcases List.mem_append.mp hpb with hpb | hpb
      · have : headPart pb ∈ order.map bare := by rw [← hE]; exact List.mem_map.mpr ⟨pb, hpb, rfl⟩
        obtain ⟨z, hz, ez⟩ := List.mem_map.mp this
        have ez' : z.args.hash = pb.hash := congrArg PB.hash ez
        have := h.inj z s (hc.mem z hz).1 h1 (ez'.trans hph)
        exact (h2 (this ▸ hz)).elim
      · exact hpb
    have hone : es = [pb] := by
      rcases es with _ | ⟨x, _ | ⟨y, es⟩⟩
      · simp at hpb'
      · rw [List.mem_singleton.mp hpb']
      · have e1 := (hall x (by simp)).hash
        have e2 := (hall y (by simp)).hash
        simp [hashes, e1, e2] at hnd
    rw [e, hone, List.map_append, List.map_append, hE, List.map_cons, List.map_nil, List.map_cons, List.map_nil, headPart_bare (hall pb hpb')]

/-- Every way of receiving the messages completes the blocks in some order. -/
theorem Supplied.completions (h : Supplied C tree received) (hC : C.Lawful) (tracked : GoStr → Bool) :
    ∀ l : List RMsg, (∀ m ∈ l, m ∈ received) → ∃ order, Completions tracked tree l order := by
  intro l
  induction l using snoc_induction with
  | nil => exact fun _ => ⟨[], .nil⟩
  | snoc l m ih =>
    intro hl
    obtain ⟨order, ho⟩ := ih (fun x hx => hl x (by simp [hx]))
    by_cases hex : ∃ s ∈ tree, s ∉ order ∧ s.CompleteIn tracked (l ++ [m])
    · obtain ⟨s, hs, hso, hcs⟩ := hex
      refine ⟨order ++ [s], .one ho hs hso hcs ?_⟩
      -- the message is one of the block
      have key : ∀ x ∈ tree, x ∉ order → x.CompleteIn tracked (l ++ [m]) → blockOf m.key = x.args.hash := by
        intro x hx hxo hcx
        refine Classical.byContradiction fun hne => hxo (ho.all hC h.correct x hx ?_)
        intro y hy hm
        obtain ⟨r, hr, e⟩ := hcx y hy hm
        rcases List.mem_append.mp hr with hr | hr
        · exact ⟨r, hr, e⟩
        · rw [List.mem_singleton.mp hr] at e
          refine (hne ?_).elim
          rw [e]
          exact copy_hash hC (h.correct x hx) (m := { m with key := y.key, value := y.value }) ⟨y, hy, rfl, rfl⟩
      intro x hx hxo hcx
      exact h.inj x s hx hs ((key x hx hxo hcx).symm.trans (key s hs hso hcs))
    · exact ⟨order, .none ho (fun s hs hso hcs => hex ⟨s, hs, hso, hcs⟩)⟩

/-- The order is determined. -/
theorem Spec.Completions.unique {l : List RMsg} {order : List SentBlock} (h : Completions tracked tree l order) :
    ∀ {order' : List SentBlock}, Completions tracked tree l order' → order' = order := by
  suffices H : ∀ {l' : List RMsg} {order' : List SentBlock}, Completions tracked tree l' order' → l' = l → order' = order from
    fun {_} h' => H h' rfl
  induction h with
  | nil =>
    intro l' order' h' e
    cases h' with
    | nil => rfl
    | none _ _ => simp at e
    | one _ _ _ _ _ => simp at e
  | @none l order m hc h1 ih =>
    intro l' order' h' e
    cases h' with
    | nil => simp at e
    | none hc' _ =>
      obtain ⟨e1, e2⟩ := List.append_inj' e rfl
      exact ih hc' e1
    | @one l2 order2 m2 s hc' h2 h3 h4 _ =>
      obtain ⟨e1, e2⟩ := List.append_inj' e rfl
      have := ih hc' e1
      subst this
      rw [e] at h4
      exact (h1 s h2 h3 h4).elim
  | @one l order m s hc h1 h2 h3 h4 ih =>
    intro l' order' h' e
    cases h' with
    | nil => simp at e
    | none hc' g =>
      obtain ⟨e1, e2⟩ := List.append_inj' e rfl
      have := ih hc' e1
      subst this
      rw [e] at g
      exact (g s h1 h2 h3).elim
    | @one l2 order2 m2 s2 hc' g1 g2 g3 _ =>
      obtain ⟨e1, e2⟩ := List.append_inj' e rfl
      have := ih hc' e1
      subst this
      rw [e] at g3
      rw [h4 s2 g1 g2 g3]

theorem Spec.Completions.before {l : List RMsg} {order : List SentBlock} (h : Completions tracked tree l order) :
    ∀ l1 l2, l = l1 ++ l2 → ∃ a b, order = a ++ b ∧ Completions tracked tree l1 a := by
  induction h with
  | nil =>
    intro l1 l2 e
    obtain ⟨rfl, rfl⟩ := List.append_eq_nil_iff.mp e.symm
    exact ⟨[], [], rfl, .nil⟩
  | @none l order m hc h1 ih =>
    intro l1 l2 e
    cases l2 using snoc_induction with
    | nil => exact ⟨order, [], by simp, by rw [List.append_nil] at e; rw [← e]; exact .none hc h1⟩
    | snoc l2 x _ =>
      rw [← List.append_assoc] at e
      exact ih l1 l2 (List.append_inj' e rfl).1
  | @one l order m s hc h1 h2 h3 h4 ih =>
    intro l1 l2 e
    cases l2 using snoc_induction with
    | nil => exact ⟨order ++ [s], [], by simp, by rw [List.append_nil] at e; rw [← e]; exact .one hc h1 h2 h3 h4⟩
    | snoc l2 x _ =>
      rw [← List.append_assoc] at e
      obtain ⟨a, b, e', g⟩ := ih l1 l2 (List.append_inj' e rfl).1
      exact ⟨a, b ++ [s], by rw [e', List.append_assoc], g⟩

theorem Spec.Completions.nodup {l : List RMsg} {order : List SentBlock} (h : Completions tracked tree l order) : order.Nodup := by
  induction h with
  | nil => simp
  | none _ _ ih => exact ih
  | one _ _ h2 _ _ ih =>
    rw [List.nodup_append]
    refine ⟨ih, by simp, ?_⟩
    intro a ha b hb e
    rw [List.mem_singleton.mp hb] at e
    exact h2 (e ▸ ha)

/-- Messages that are all of one block and make it complete. -/
theorem Supplied.group (h : Supplied C tree received) (hC : C.Lawful) {l g : List RMsg} {order : List SentBlock} {s : SentBlock}
    (hl : ∀ m ∈ l ++ g, m ∈ received) (ho : Completions tracked tree l order) (hs : s ∈ tree) (hso : s ∉ order)
    (hg : ∀ m ∈ g, Copy s.msgs m) (hc : s.CompleteIn tracked (l ++ g)) : Completions tracked tree (l ++ g) (order ++ [s]) := by
  obtain ⟨order', ho'⟩ := h.completions hC tracked (l ++ g) hl
  obtain ⟨a, b, e, ha⟩ := ho'.before l g rfl
  have := ho.unique ha
  subst this
  have hb : ∀ x ∈ b, x = s := by
    intro x hx
    have hxo : x ∈ order' := by rw [e]; simp [hx]
    obtain ⟨hxt, hxc⟩ := ho'.mem x hxo
    refine Classical.byContradiction fun hne => ?_
    have hxl : x.CompleteIn tracked l := by
      intro y hy hm
      obtain ⟨r, hr, er⟩ := hxc y hy hm
      rcases List.mem_append.mp hr with hr | hr
      · exact ⟨r, hr, er⟩
      · refine (hne (h.inj x s hxt hs ?_)).elim
        rw [← copy_hash hC (h.correct s hs) (hg r hr), er]
        exact (copy_hash hC (h.correct x hxt) (m := { r with key := y.key, value := y.value }) ⟨y, hy, rfl, rfl⟩).symm
    have h1 := ho.all hC h.correct x hxt hxl
    have h2 := ho'.nodup
    rw [e, List.nodup_append] at h2
    exact h2.2.2 x h1 x hx rfl
  have hsb : s ∈ b := by
    have := ho'.all hC h.correct s hs hc
    rw [e] at this
    exact (List.mem_append.mp this).resolve_left hso
  have : b = [s] := by
    have hnd := ho'.nodup
    rw [e, List.nodup_append] at hnd
    rcases b with _ | ⟨x, _ | ⟨y, b⟩⟩
    · simp at hsb
    · rw [hb x (by simp)]
    · have e1 := hb x (by simp)
      have e2 := hb y (by simp)
      have := hnd.2.1
      simp [e1, e2] at this
  rw [this] at e
  rw [← e]; exact ho'

/-- **C147**, the order: as long as there are not more blocks than the window holds and nothing is asked to be dropped, the consumer emits the
blocks in the order in which the messages complete them, each once. Every list of messages of the blocks has exactly one such order. -/
theorem C147_order (h : Supplied C tree received) (hC : C.Lawful) (hwin : (tree.length : Int) ≤ 2 * cfg.reorgThreshold) {mp0 mp : MP}
    (hn : newMP cfg = .ok mp0) (hk : ∀ s ∈ tree, Keeps env s.args.number) (hr : mp0.run C env received = .ok mp) :
    ∃ order, Completions cfg.tracked tree received order ∧ (∀ order', Completions cfg.tracked tree received order' → order' = order) ∧
      hashes mp.emitted = order.map (·.args.hash) := by
  obtain ⟨order, ho⟩ := h.completions hC cfg.tracked received (fun _ hm => hm)
  refine ⟨order, ho, fun _ h' => ho.unique h', ?_⟩
  rw [← hashes_headPart, h.completed hC hwin hn hk ho (fun _ hm => hm) hr, hashes_bare]

/-! ## The whole consumer -/

theorem joined_headPart {root : Hash} {bs : List PB} {h : Hash} : Joined root (bs.map headPart) h ↔ Joined root bs h := by
  constructor
  · intro hj
    induction hj with
    | root => exact .root
    | step hb _ ih =>
      obtain ⟨y, hy, rfl⟩ := List.mem_map.mp hb
      exact .step (b := y) hy ih
  · intro hj
    induction hj with
    | root => exact .root
    | @step b hb _ ih => exact .step (b := headPart b) (List.mem_map.mpr ⟨b, hb, rfl⟩) ih

theorem closes_headPart {root : Hash} {t : Int} {l : List PB} {b : PB} (h : Closes root t (l.map headPart) (headPart b)) : Closes root t l b := by
  unfold Closes at h ⊢
  simp only [joined_headPart, hashes_headPart] at h
  refine h.imp id (And.imp id (Or.imp (And.imp id (Or.imp id (Or.imp ?_ ?_))) (And.imp id ?_)))
  · intro h a ha hj
    exact h (headPart a) (List.mem_map.mpr ⟨a, ha, rfl⟩) hj
  · intro h a ha b hb hj e
    exact h (headPart a) (List.mem_map.mpr ⟨a, ha, rfl⟩) (headPart b) (List.mem_map.mpr ⟨b, hb, rfl⟩) (joined_headPart.mpr hj) e
  · intro h a ha hj hw
    exact h (headPart a) (List.mem_map.mpr ⟨a, ha, rfl⟩) hj hw

theorem closesGaps_headPart {root : Hash} {t : Int} {bs : List PB} (h : ClosesGaps root t (bs.map headPart)) : ClosesGaps root t bs := by
  intro l1 b l2 e
  subst e
  exact closes_headPart (h (l1.map headPart) (headPart b) (l2.map headPart) (by simp))

theorem Spec.ClosesGaps.left {root : Hash} {t : Int} {a b : List PB} (h : ClosesGaps root t (a ++ b)) : ClosesGaps root t a := by
  intro l1 x l2 e
  exact h l1 x (l2 ++ b) (by rw [e]; simp)

variable {root : SentBlock}

/-- When no request was sent in states in which none was acted on before, none is acted on before the last call. -/
theorem undisturbed (h : Supplied C tree received) (hC : C.Lawful) {s0 s : Sys} (hst : Sys.start cfg (received.map Call.msg) = .ok s0)
    (hcalm : ∀ {s1 : Sys}, Sys.Steps C env o s0 s1 → Undisturbed C env cfg s1.calls → ∀ n, OOut.evictOlder n ∉ s1.omp.log)
    (hs : CausalSteps C env o s0 s) : Undisturbed C env cfg s.calls := by
  induction hs with
  | refl =>
    intro mp0 ms _ hc l1 m l2 mp1 e
    have : s0.calls = [] := by
      unfold Sys.start at hst
      obtain ⟨mp, _, hst⟩ := bind_ok.mp hst
      obtain ⟨omp, _, hst⟩ := bind_ok.mp hst
      cases hst; rfl
    rw [this] at hc
    have := (List.map_eq_nil_iff.mp hc.symm)
    rw [this] at e
    simp at e
  | step hs hstep hheard ih =>
    rename_i s1 s2
    cases hstep with
    | call ht hout hc =>
      rename_i c cs mp
      have hc1 := hcalm hs.steps ih
      have hh := hheard (by simp)
      obtain ⟨mp0', omp0, ms1, ds, hn', ho, ⟨rest, h1, h2⟩, h3, h4, h5, h6⟩ := h.inside hC hst hs.steps
      have hcalls : s1.calls = ms1.map Call.msg := by
        have := ((Piped.start hst).steps hs.steps).consists.calls
        rw [h1, h2, List.map_append] at this
        exact (List.append_cancel_right this).symm
      intro mp0 ms hn hcs l1 m l2 mp1 e hr t htick
      rw [hn'] at hn
      cases hn
      have hcs : s1.calls ++ [c] = ms.map Call.msg := hcs
      rw [hcalls, e] at hcs
      rw [List.map_append, List.map_cons] at hcs
      rcases l2 with _ | ⟨y, l2⟩
      · rw [List.map_nil] at hcs
        have := call_msg_inj (List.append_inj_left' hcs rfl)
        subst this
        rw [h3] at hr
        cases hr
        cases hev : env.evict t with
        | nil => rfl
        | cons n rest => exact (hc1 n (hh t htick n (by rw [hev]; simp))).elim
      · obtain ⟨l3, z, e3⟩ : ∃ l3 z, y :: l2 = l3 ++ [z] := ⟨(y :: l2).dropLast, (y :: l2).getLast (List.cons_ne_nil _ _), (List.dropLast_concat_getLast (List.cons_ne_nil _ _)).symm⟩
        rw [e3, List.map_append] at hcs
        have hcs : ms1.map Call.msg ++ [c] = (l1 ++ m :: l3).map Call.msg ++ [Call.msg z] := by rw [hcs]; simp
        have := call_msg_inj (List.append_inj_left' hcs rfl)
        exact ih mp0' ms1 hn' hcalls l1 m l3 mp1 this hr t htick
    | sendBlock h1 h2 => exact ih
    | sendReorg h1 h2 => exact ih
    | sendWaiter h1 => exact ih
    | block h1 h2 => exact ih
    | reorg h1 h2 => exact ih

theorem Spec.SentTree.over (h : SentTree C cfg root tree received) {pb : PB} {s : SentBlock} (hs : s ∈ tree) (hh : HeadOf s pb) :
    OverRoot (treeWorld root tree) cfg.lastHash pb := by
  have hw0 : ∀ s ∈ tree, 0 ≤ s.args.weight := fun s hs => (h.correct s hs).2.weight
  have := tree_over (W := treeWorld root tree) (root := cfg.lastHash) (bs := tree.map bare) (by
      intro b hb
      obtain ⟨x, hx, rfl⟩ := List.mem_map.mp hb
      exact (h.toHeaderTree.world hw0 ⟨x, hx, ⟨rfl, Int.toNat_of_nonneg (hw0 x hx), rfl, rfl⟩⟩).2.2.1) (by
      rw [TreeOf, hashes_bare]
      refine ⟨h.inU, ?_⟩
      intro b hb
      obtain ⟨x, hx, rfl⟩ := List.mem_map.mp hb
      rcases h.parents x hx with rfl | ⟨p, hp, e, _⟩
      · exact .inl h.hash
      · exact .inr (List.mem_map.mpr ⟨p, hp, e⟩)) (bare s) (List.mem_map.mpr ⟨s, hs, rfl⟩)
  unfold OverRoot at this ⊢
  rw [hh.hash, hh.parent]
  exact this

theorem Spec.SentTree.gapsHandled (h : SentTree C cfg root tree received) (hwin : (tree.length : Int) ≤ 2 * cfg.reorgThreshold) {omp0 omp : OMP}
    (ho : newOMP cfg = .ok omp0) {ds : List PB} (hds : ∀ pb ∈ ds, ∃ s ∈ tree, Exact cfg.tracked s.schema s.args s.subs pb)
    (hc : ClosesGaps cfg.lastHash cfg.reorgThreshold ds) (hr : omp0.run o (ds.map OOp.block) = .ok omp) :
    Between (treeWorld root tree) (tree.map (·.args.hash)) cfg.whitelist cfg.reorgThreshold cfg.lastHash ds omp := by
  obtain ⟨s', g1, g2⟩ := gaps_between (o := o) (U := tree.map (·.args.hash)) h.rootHash h.rootWeight (fun b hb => (h.world (hds b hb)).1)
    (fun b hb => (h.world (hds b hb)).2.1) (fun b hb => (h.world (hds b hb)).2.2.1)
    (fun b hb => by obtain ⟨s, hs, he⟩ := hds b hb; exact h.over hs ⟨he.number, he.weight, he.hash, he.parent⟩)
    ⟨by simpa using hwin, h.inU, fun b hb => (h.world (hds b hb)).2.2.2.2⟩ (fun b hb => (h.world (hds b hb)).2.2.2.1) hc ho
  rw [hr] at g1
  cases g1
  exact g2

/-- Up to the last message nothing was dropped: the blocks emitted are the first ones of the order. -/
theorem Supplied.completedSoFar (h : Supplied C tree received) (hC : C.Lawful) (hwin : (tree.length : Int) ≤ 2 * cfg.reorgThreshold) {mp0 mp : MP}
    (hn : newMP cfg = .ok mp0) {l : List RMsg} {order : List SentBlock} (hc : Completions cfg.tracked tree l order) (hl : ∀ m ∈ l, m ∈ received)
    (hr : mp0.run C env l = .ok mp) (hq : ∀ l1 m l2 mp1, l = l1 ++ m :: l2 → mp0.run C env l1 = .ok mp1 → ∀ t, t < mp1.tick → env.evict t = []) :
    ∃ a b, order = a ++ b ∧ mp.emitted.map headPart = a.map bare := by
  have quiet : ∀ {l1 : List RMsg} {a : List SentBlock} {mp1 : MP}, Completions cfg.tracked tree l1 a → (∀ m ∈ l1, m ∈ received) →
      mp0.run C env l1 = .ok mp1 → (∀ t, t < mp1.tick → env.evict t = []) → mp1.emitted.map headPart = a.map bare := by
    intro l1 a mp1 hc hl hr hq
    refine h.completed (env := env.upTo mp1.tick) hC hwin hn ?_ hc hl (run_upTo hr (Nat.le_refl _))
    intro s _ t x hx
    unfold Env.upTo at hx
    simp only [] at hx
    split at hx
    · rename_i ht
      rw [hq t ht] at hx
      simp at hx
    · simp at hx
  cases hc with
  | nil =>
    refine ⟨[], [], rfl, ?_⟩
    cases hr
    unfold newMP at hn
    split at hn
    · cases hn
    · cases hn; rfl
  | @none l order m hc h1 =>
    obtain ⟨mp1, hr1, hr2⟩ := run_append hr
    have hE := quiet hc (fun x hx => hl x (by simp [hx])) hr1 (hq l m [] mp1 rfl hr1)
    obtain ⟨es, e, _, he⟩ := h.emittedBy hC hwin hn hl hr1 hr hE
    have : es = [] := by
      rcases es with _ | ⟨pb, es⟩
      · rfl
      · obtain ⟨s, hs, _, hso, hcs⟩ := he pb (by simp)
        exact (h1 s hs hso hcs).elim
    exact ⟨order, [], by simp, by rw [e, this, List.append_nil]; exact hE⟩
  | @one l order m s hc h1 h2 h3 h4 =>
    obtain ⟨mp1, hr1, hr2⟩ := run_append hr
    have hE := quiet hc (fun x hx => hl x (by simp [hx])) hr1 (hq l m [] mp1 rfl hr1)
    obtain ⟨es, e, hnd, he⟩ := h.emittedBy hC hwin hn hl hr1 hr hE
    have hall : ∀ pb ∈ es, HeadOf s pb := by
      intro pb hpb
      obtain ⟨s', hs', hh, hso, hcs⟩ := he pb hpb
      rw [← h4 s' hs' hso hcs]; exact hh
    rcases es with _ | ⟨x, _ | ⟨y, es⟩⟩
    · exact ⟨order, [s], rfl, by rw [e, List.append_nil]; exact hE⟩
    · exact ⟨order ++ [s], [], by simp, by rw [e, List.map_append, List.map_append, hE, List.map_cons, List.map_nil, List.map_cons, List.map_nil,
        headPart_bare (hall x (by simp))]⟩
    · have e1 := (hall x (by simp)).hash
      have e2 := (hall y (by simp)).hash
      simp [hashes, e1, e2] at hnd

/-- What is asked of the order in which the messages arrive: completed in that order, the blocks close their gaps well (C39). -/
def Spec.ClosingWell (cfg : Config) (tree : List SentBlock) (received : List RMsg) : Prop :=
  ∀ order, Completions cfg.tracked tree received order → ClosesGaps cfg.lastHash cfg.reorgThreshold (order.map bare)

theorem Spec.SentTree.gapsConsequences (h : SentTree C cfg root tree received) (hC : C.Lawful) (hwin : (tree.length : Int) ≤ 2 * cfg.reorgThreshold)
    (hf : ClosingWell cfg tree received) {s0 s : Sys}
    (hst : Sys.start cfg (received.map Call.msg) = .ok s0) (hs : Sys.Steps C env o s0 s) (key : Undisturbed C env cfg s.calls) :
    Between (treeWorld root tree) (tree.map (·.args.hash)) cfg.whitelist cfg.reorgThreshold cfg.lastHash (blocksOf s.ops) s.omp := by
  obtain ⟨mp0, omp0, ms, ds, hn, ho, ⟨rest, h1, h2⟩, h3, h4, h5, h6⟩ := h.supplied.inside hC hst hs
  have hcalls : s.calls = ms.map Call.msg := by
    have := ((Piped.start hst).steps hs).consists.calls
    rw [h1, h2, List.map_append] at this
    exact (List.append_cancel_right this).symm
  obtain ⟨order, hord⟩ := h.supplied.completions hC cfg.tracked received (fun _ hm => hm)
  obtain ⟨a, b, e1, hpre⟩ := hord.before ms rest h1
  obtain ⟨a1, a2, e2, hE⟩ := h.supplied.completedSoFar hC hwin hn hpre (fun m hm => by rw [h1]; simp [hm]) h3 (key mp0 ms hn hcalls)
  have hcl := hf order hord
  rw [e1, e2, List.map_append, List.map_append] at hcl
  have hcl := hcl.left.left
  rw [← hE] at hcl
  have hcl := closesGaps_headPart hcl
  rw [h6] at hcl
  have hds : blocksOf s.ops = ds := by rw [h4, blocksOf_map]
  rw [hds]
  exact h.gapsHandled hwin ho (fun pb hpb => h.supplied.emitted hC hn (fun m hm => by rw [h1]; simp [hm]) h3 (by rw [h6]; simp [hpb])) hcl.left h5

/-- What holds in every state when the requests acted on were sent before. -/
theorem Spec.SentTree.gapsInside (h : SentTree C cfg root tree received) (hC : C.Lawful) (hwin : (tree.length : Int) ≤ 2 * cfg.reorgThreshold)
    (hf : ClosingWell cfg tree received) {s0 s : Sys}
    (hst : Sys.start cfg (received.map Call.msg) = .ok s0) (hs : CausalSteps C env o s0 s) :
    Between (treeWorld root tree) (tree.map (·.args.hash)) cfg.whitelist cfg.reorgThreshold cfg.lastHash (blocksOf s.ops) s.omp :=
  h.gapsConsequences hC hwin hf hst hs.steps
    (undisturbed h.supplied hC hst (fun hs1 key => (h.gapsConsequences hC hwin hf hst hs1 key).mid.calm) hs)

/-- **C147**, while running: at every moment the head of the subscribers hangs together with the last processed block, no block handled that hangs
together with it is heavier, and nothing was asked to be dropped. -/
theorem C147_head (h : SentTree C cfg root tree received) (hC : C.Lawful) (hwin : (tree.length : Int) ≤ 2 * cfg.reorgThreshold)
    (hf : ClosingWell cfg tree received) {s0 s : Sys} (hst : Sys.start cfg (received.map Call.msg) = .ok s0)
    (hs : CausalSteps C env o s0 s) :
    Joined cfg.lastHash (blocksOf s.ops) s.omp.lastHash ∧ (∀ n, OOut.evictOlder n ∉ s.omp.log) ∧
      ∀ b ∈ blocksOf s.ops, Joined cfg.lastHash (blocksOf s.ops) b.hash →
        ∀ top ∈ tree, top.args.hash = s.omp.lastHash → (b.weight : Int) ≤ top.args.weight := by
  have hB := h.gapsInside hC hwin hf hst hs
  refine ⟨hB.mid.head, hB.mid.calm, ?_⟩
  intro b hb hj top htop e
  have hw0 : ∀ s ∈ tree, 0 ≤ s.args.weight := fun s hs => (h.correct s hs).2.weight
  have h1 := hB.best b hb hj
  have h2 := (h.toHeaderTree.world hw0 ⟨top, htop, (⟨rfl, Int.toNat_of_nonneg (hw0 top htop), rfl, rfl⟩ : HeadOf top (bare top))⟩).1.1.weight
  rw [hB.mid.weight, ← e] at h1
  have h2 : top.args.weight.toNat = (treeWorld root tree).weight top.args.hash := h2
  have := hw0 top htop
  omega

/-- **C147**, at the end: when of every block all messages that matter have arrived and everything has been handled, the subscribers, having applied
all updates, hold a chain of blocks exactly as produced that ends in a block of maximal weight of the whole tree. -/
theorem C147_end (h : SentTree C cfg root tree received) (hC : C.Lawful) (hwin : (tree.length : Int) ≤ 2 * cfg.reorgThreshold)
    (hf : ClosingWell cfg tree received) (ha : ∀ s ∈ tree, s.CompleteIn cfg.tracked received) {s0 s : Sys}
    (hst : Sys.start cfg (received.map Call.msg) = .ok s0) (hs : CausalSteps C env o s0 s) (hd : s.Drained) (hg : Heard env s) :
    ∃ base chain top, Replays cfg.lastHash s.omp.log base chain ∧ Linked base chain ∧ endOf base chain = top.args.hash ∧
      top ∈ tree ∧ (∀ sb ∈ tree, sb.args.weight ≤ top.args.weight) ∧
      ∀ b ∈ chain, ∃ sb ∈ tree, Exact cfg.tracked sb.schema sb.args sb.subs b := by
  have hB := h.gapsInside hC hwin hf hst hs
  obtain ⟨mp0, omp0, ms, ds, hn, ho, ⟨rest, h1, h2⟩, h3, h4, h5, h6⟩ := h.supplied.inside hC hst hs.steps
  rw [hd.1] at h2
  have hrest : rest = [] := List.map_eq_nil_iff.mp h2.symm
  subst hrest
  rw [List.append_nil] at h1
  subst h1
  rw [hd.2.1, hd.2.2.1] at h6
  have h6 : s.mp.emitted = ds := by simpa [blocksSent] using h6
  have hds : blocksOf s.ops = ds := by rw [h4, blocksOf_map]
  rw [hds] at hB
  have hex : ∀ pb ∈ ds, ∃ s ∈ tree, Exact cfg.tracked s.schema s.args s.subs pb := fun pb hpb =>
    h.supplied.emitted hC hn (fun m hm => hm) h3 (by rw [h6]; exact hpb)
  have hk : ∀ n, Keeps (env.upTo s.mp.tick) n := by
    intro n t x hx
    unfold Env.upTo at hx
    simp only [] at hx
    split at hx
    · rename_i ht
      exact (hB.mid.calm x (hg t ht x hx)).elim
    · simp at hx
  have hall : ∀ sb ∈ tree, ∃ pb ∈ ds, pb.hash = sb.args.hash := by
    intro sb hsb
    obtain ⟨pb, hpb, he⟩ := (C147_when hC (h.correct sb hsb).1 (h.correct sb hsb).2 hn (hk _)
      (faithful_of_blocks hC h.correct h.supplied.inj (fun m hm => .inl (h.only m hm)) hsb) (run_upTo h3 (Nat.le_refl _))).mpr (ha sb hsb)
    exact ⟨pb, by rw [← h6]; exact hpb, he⟩
  have hN : ∀ b ∈ ds, (treeWorld root tree).Numbered b := fun b hb => (h.world (hex b hb)).2.2.1
  have hT : TreeOf cfg.lastHash ds := by
    refine ⟨?_, ?_⟩
    · obtain ⟨pb, hpb, e⟩ := hall root h.mem
      exact List.mem_map.mpr ⟨pb, hpb, e.trans h.hash⟩
    · intro b hb
      obtain ⟨sb, hsb, he⟩ := hex b hb
      rcases h.parents sb hsb with rfl | ⟨p, hp, e, _⟩
      · exact .inl (he.hash.trans h.hash)
      · right
        obtain ⟨pb, hpb, e'⟩ := hall p hp
        exact List.mem_map.mpr ⟨pb, hpb, by rw [e', e, he.parent]⟩
  obtain ⟨b, hb, e1⟩ := joined_mem hT.1 hB.mid.head
  obtain ⟨top, htop, hx⟩ := hex b hb
  obtain ⟨base, chain, g1, g2, g3⟩ := C28_continuous (o := o) (W := treeWorld root tree) (ops := ds.map OOp.block) (s0 := omp0) h.rootHash
    (by rw [blocksOf_map]; exact fun b hb => (h.world (hex b hb)).1) ho h5
  refine ⟨base, chain, top, g1, g2, by rw [g3, ← e1, hx.hash], htop, ?_, ?_⟩
  · intro sb hsb
    obtain ⟨pb, hpb, he⟩ := hall sb hsb
    have h7 := hB.best pb hpb (tree_joined hN hT pb hpb).1
    rw [hB.mid.weight, ← e1, ← (h.world (hex b hb)).1.1.weight] at h7
    obtain ⟨sb', hsb', he'⟩ := hex pb hpb
    have := h.supplied.inj sb' sb hsb' hsb (he'.hash.symm.trans he)
    subst this
    have h8 := he'.weight
    have h9 := hx.weight
    omega
  · intro x hx
    obtain ⟨a, r, k1, k2⟩ := replays_sent g1 x hx
    exact hex x (by rw [← h6]; exact C43_updates hst hs.steps k1 (List.mem_append_left _ k2))

end

/-! ## Example -/

/-- A block on `exNext`. -/
def exGrand : BlockArgs := { exBlock with number := 7, hash := exHash 6, parentHash := exHash 3, weight := 330 }

theorem exGrand_ok : ∃ p' tm, addBlock' Avro.codec MapOrder.rev exProducer exGrand = (p', .ok tm) := by
  have : (match (addBlock' Avro.codec MapOrder.rev exProducer exGrand).2 with | .ok _ => true | .error _ => false) = true := by
    decide +kernel
  generalize hr : addBlock' Avro.codec MapOrder.rev exProducer exGrand = r at this
  obtain ⟨p', r⟩ := r
  cases r with
  | error e => simp at this
  | ok tm => exact ⟨p', tm, rfl⟩

theorem exGrand_wf : WellFormed exProducer.schema exGrand exSubs := { exBlock_wf with weight := by decide, number := by decide, lenWeight := by decide +kernel }

/-- C147: `exBlock` again, then the last of three blocks, then a fork of the second, then the second, which closes the gap; the subscribers end at
the last block although it came before its parent. -/
theorem exMoment_run : ∃ root tree received order, tree.length = 4 ∧ SentTree Avro.codec exForkCfg root tree received ∧ (tree.length : Int) ≤ 2 * exForkCfg.reorgThreshold ∧
    Completions exForkCfg.tracked tree received order ∧ order.map (·.args.hash) = [exHash 1, exHash 6, exHash 5, exHash 3] ∧
    ClosingWell exForkCfg tree received ∧ (∀ s ∈ tree, s.CompleteIn exForkCfg.tracked received) ∧
    ∃ s0 s base chain, Sys.start exForkCfg (received.map Call.msg) = .ok s0 ∧ CausalSteps Avro.codec exEnv .plain s0 s ∧ s.Drained ∧ Heard exEnv s ∧
      Replays exForkCfg.lastHash s.omp.log base chain ∧ endOf base chain = exGrand.hash := by
  obtain ⟨m1, h1⟩ := exBlock_produced
  obtain ⟨p', tm, h⟩ := exNext_ok
  obtain ⟨m2, h2⟩ := produced_exists h exSubs
  obtain ⟨p', tm, h⟩ := exForkBlock_ok
  obtain ⟨m3, h3⟩ := produced_exists h exSubs
  obtain ⟨p', tm, h⟩ := exGrand_ok
  obtain ⟨m4, h4⟩ := produced_exists h exSubs
  let root : SentBlock := ⟨exProducer.schema, exBlock, exSubs, m1⟩
  let next : SentBlock := ⟨exProducer.schema, exNext, exSubs, m2⟩
  let fork : SentBlock := ⟨exProducer.schema, exForkBlock, exSubs, m3⟩
  let third : SentBlock := ⟨exProducer.schema, exGrand, exSubs, m4⟩
  let tree : List SentBlock := [root, next, fork, third]
  have hmem : ∀ s, s ∈ tree ↔ s = root ∨ s = next ∨ s = fork ∨ s = third := by
    intro s; simp [tree]
  have hcorrect : ∀ s ∈ tree, s.Correct Avro.codec := by
    intro s hs
    rcases (hmem s).mp hs with rfl | rfl | rfl | rfl
    · exact ⟨h1, exBlock_wf⟩
    · exact ⟨h2, exNext_wf⟩
    · exact ⟨h3, exForkBlock_wf⟩
    · exact ⟨h4, exGrand_wf⟩
  have hT : SentTree Avro.codec exForkCfg root tree (((recv m1 ++ recv m4) ++ recv m3) ++ recv m2) := by
    refine ⟨⟨by simp [tree], rfl, rfl, show (0 : Int) < 300 by decide, ?_, ?_, ?_, ?_⟩, hcorrect, ?_⟩
    · show exHash 2 ∉ [exHash 1, exHash 3, exHash 5, exHash 6]
      decide
    · intro s hs
      rcases (hmem s).mp hs with rfl | rfl | rfl | rfl
      · exact .inl rfl
      · exact .inr ⟨root, by simp [tree], rfl, rfl, show (300 : Int) < 310 by decide⟩
      · exact .inr ⟨root, by simp [tree], rfl, rfl, show (300 : Int) < 320 by decide⟩
      · exact .inr ⟨next, by simp [tree], rfl, rfl, show (310 : Int) < 330 by decide⟩
    · show [Hash.zero, exHash 1, exHash 3, exHash 5, exHash 6].Nodup
      decide
    · intro s _ x hx
      simp [exForkCfg, exCfg] at hx
    · intro m hm
      simp only [List.mem_append] at hm
      rcases hm with ((hm | hm) | hm) | hm
      · exact ⟨root, by simp [tree], recv_copy (ms := m1) (fun _ h => h) hm⟩
      · exact ⟨third, by simp [tree], recv_copy (ms := m4) (fun _ h => h) hm⟩
      · exact ⟨fork, by simp [tree], recv_copy (ms := m3) (fun _ h => h) hm⟩
      · exact ⟨next, by simp [tree], recv_copy (ms := m2) (fun _ h => h) hm⟩
  have hA : ∀ (s : SentBlock) (l : List RMsg), (∀ m ∈ recv s.msgs, m ∈ l) → s.CompleteIn exForkCfg.tracked l := by
    intro s l hl x hx _
    obtain ⟨m, hm, e⟩ := recv_all s.msgs x hx
    exact ⟨m, hl m hm, e.1⟩
  have hne : ∀ {a b : SentBlock}, a.args.hash ≠ b.args.hash → a ≠ b := fun h e => h (by rw [e])
  have o1 : Completions exForkCfg.tracked tree (recv m1) [root] :=
    hT.supplied.group Avro.codec_lawful (l := []) (g := recv m1) (s := root) (order := []) (by simp +contextual) .nil (by simp [tree]) (by simp)
      (fun m hm => recv_copy (ms := m1) (fun _ h => h) hm) (hA root _ (by simp [root]))
  have o2 : Completions exForkCfg.tracked tree (recv m1 ++ recv m4) [root, third] :=
    hT.supplied.group Avro.codec_lawful (s := third) (by simp only [List.mem_append]; intro m hm; simp [hm]) o1 (by simp [tree])
      (by simp only [List.mem_singleton]; exact hne (show exHash 6 ≠ exHash 1 by decide))
      (fun m hm => recv_copy (ms := m4) (fun _ h => h) hm) (hA third _ (by simp +contextual [third]))
  have o3 : Completions exForkCfg.tracked tree ((recv m1 ++ recv m4) ++ recv m3) [root, third, fork] :=
    hT.supplied.group Avro.codec_lawful (s := fork) (by intro m hm; exact List.mem_append_left _ hm) o2 (by simp [tree])
      (by
        simp only [List.mem_cons, List.not_mem_nil, or_false, not_or]
        exact ⟨hne (show exHash 5 ≠ exHash 1 by decide), hne (show exHash 5 ≠ exHash 6 by decide)⟩)
      (fun m hm => recv_copy (ms := m3) (fun _ h => h) hm) (hA fork _ (by simp +contextual [fork]))
  have o4 : Completions exForkCfg.tracked tree (((recv m1 ++ recv m4) ++ recv m3) ++ recv m2) [root, third, fork, next] :=
    hT.supplied.group Avro.codec_lawful (s := next) (fun m hm => hm) o3 (by simp [tree])
      (by
        simp only [List.mem_cons, List.not_mem_nil, or_false, not_or]
        exact ⟨hne (show exHash 3 ≠ exHash 1 by decide), hne (show exHash 3 ≠ exHash 6 by decide), hne (show exHash 3 ≠ exHash 5 by decide)⟩)
      (fun m hm => recv_copy (ms := m2) (fun _ h => h) hm) (hA next _ (by simp +contextual [next]))
  have hF : ClosingWell exForkCfg tree (((recv m1 ++ recv m4) ++ recv m3) ++ recv m2) := by
    intro order ho
    rw [o4.unique ho]
    show ClosesGaps exForkCfg.lastHash exForkCfg.reorgThreshold ([exBlock, exGrand, exForkBlock, exNext].map (fun a => bare ⟨[], a, exSubs, []⟩))
    refine closes_of ?_
    decide +kernel
  have hA' : ∀ s ∈ tree, s.CompleteIn exForkCfg.tracked (((recv m1 ++ recv m4) ++ recv m3) ++ recv m2) := by
    intro s hs
    refine hA s _ ?_
    rcases (hmem s).mp hs with rfl | rfl | rfl | rfl <;> simp +contextual [root, next, fork, third]
  have hw : (tree.length : Int) ≤ 2 * exForkCfg.reorgThreshold := by show (4 : Int) ≤ 2 * 2; decide
  have hst : ∃ s0, Sys.start exForkCfg ((((recv m1 ++ recv m4) ++ recv m3) ++ recv m2).map Call.msg) = .ok s0 := ⟨_, rfl⟩
  obtain ⟨s0, hst⟩ := hst
  obtain ⟨s, hs, hd⟩ := (C86_no_fault (env := exEnv) (o := .plain) hT Avro.codec_lawful hw hst .refl).2
  have hcs := causal_of_none (fun _ => rfl) hs
  have hh : Heard exEnv s := fun t _ n hn => by simp [exEnv] at hn
  obtain ⟨base, chain, top, g1, g2, g3, g4, g5, g6⟩ := C147_end hT Avro.codec_lawful hw hF hA' hst hcs hd hh
  refine ⟨root, tree, _, _, rfl, hT, hw, o4, rfl, hF, hA', s0, s, base, chain, hst, hcs, hd, hh, g1, ?_⟩
  rw [g3]
  have h330 := g5 third (by simp [tree])
  rcases (hmem top).mp g4 with rfl | rfl | rfl | rfl
  · exact absurd h330 (show ¬ (330 : Int) ≤ 300 by decide)
  · exact absurd h330 (show ¬ (330 : Int) ≤ 310 by decide)
  · exact absurd h330 (show ¬ (330 : Int) ≤ 320 by decide)
  · rfl

end Verif
