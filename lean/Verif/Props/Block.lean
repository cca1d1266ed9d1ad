import Verif.Proofs.Produced
import Verif.Proofs.Provenance
import Verif.Props.Consumer
/-!
# C01, C02, C04, C09, C11 (second half), C14, C16: from `AddBlock` / `SendBatch` to the subscriber

The statements are in terms of the producer's calls (`Produced`, `ExpectedValue`, `ExpectedDelete` in `Spec/Block.lean`).
-/
namespace Verif
open Spec Path

section
variable {C : Codec} {env : Env} {schema : List RegexpPair} {a : BlockArgs} {subs : Hash → SubArgs} {ms : List Msg} {b : Batch}

theorem Bridge.own (hb : Bridge C schema a subs ms b) {received : List RMsg} (hf : Faithful a.hash ms received) {m : RMsg}
    (hm : m ∈ received) (hh : hashOf m.key = a.hash) : Blk.Own C (blkOf schema a subs b) m := by
  rcases hf m hm hh with ⟨x, hx, h1, h2⟩ | ⟨h1, t, h2, h3⟩
  · obtain ⟨i, h4, h5⟩ := hb.mine x hx
    exact .inl ⟨i, h1.trans h4, h2 ▸ h5⟩
  · refine .inr ⟨by omega, ?_⟩
    have : m.key.headD 0 = t := by
      cases hk : m.key with
      | nil => rw [hk] at h2; simp at h2
      | cons x l => rw [hk] at h2; simp at h2; simp [h2]
    rw [this]
    exact UInt8.not_lt.mpr h3

theorem Bridge.exact (hb : Bridge C schema a subs ms b) (hw : WellFormed schema a subs) {tracked : GoStr → Bool} {pb : PB}
    (hi : Blk.Inv C (blkOf schema a subs b) tracked pb) (hr : pb.ready = true) : Exact tracked schema a subs pb := by
  obtain ⟨h1, h2⟩ := hi.exact hb.wf hr
  refine ⟨hi.hash, hi.number.trans hb.hdr.number, hi.parent.trans hb.hdr.parent, ?_, fun k v => (h1 k v).trans
    (blkOf_expV hb.hdr hw k v), fun k => (h2 k).trans (blkOf_expD hb.hdr k)⟩
  have : pb.weight = a.weight.natAbs := by
    rw [hi.weight]; simp only [blkOf]; rw [hb.hdr.weight, bytesNat_natBytes]
  rw [this]
  have := hw.weight
  omega

theorem Bridge.sound (hC : C.Lawful) (hb : Bridge C schema a subs ms b) {cfg : Config} {mp mp' : MP} {received : List RMsg}
    (hn : newMP cfg = .ok mp) (hf : Faithful a.hash ms received) (hr : mp.run C env received = .ok mp') :
    Base mp' ∧ Blk.Sound C (blkOf schema a subs b) cfg.tracked cfg.frp [] mp' :=
  ((Blk.lift (env := env) (tracked := cfg.tracked) (frp := cfg.frp) hC true (Blk.only (blkOf schema a subs b))
    (Blk.only_wf hb.wf) (.inl rfl)).parts (E0 := [])).toParts.run
    (fun _ hm => Blk.own_only (fun hh => hb.own hf hm hh)) ⟨Base.newMP hn, LiftInv.newMP hn trivial⟩ hr

theorem newMP_calm (B : Blk) {cfg : Config} {mp : MP} (hn : newMP cfg = .ok mp) : Blk.Calm B mp := by
  unfold newMP at hn
  split at hn
  · simp at hn
  · simp at hn; subst hn; intro pb hp; simp [GMap.get?, GMap.empty, GMap.look] at hp

end

/-- **C02**: every emission of a produced block is exact: it has the number, weight, parent and hash of the `AddBlock` call and
exactly the expected values and deletes. Other blocks' messages are arbitrary. -/
theorem C02_emitted_exact {C : Codec} (hC : C.Lawful) {env : Env} {schema : List RegexpPair} {a : BlockArgs}
    {subs : Hash → SubArgs} {ms : List Msg} (hp : Produced C schema a subs ms) (hw : WellFormed schema a subs)
    {cfg : Config} {mp mp' : MP} {received : List RMsg} (hn : newMP cfg = .ok mp) (hf : Faithful a.hash ms received)
    (hr : mp.run C env received = .ok mp') {pb : PB} (hpb : pb ∈ mp'.emitted) (hh : pb.hash = a.hash) :
    Exact cfg.tracked schema a subs pb := by
  obtain ⟨b, hb⟩ := bridge hC hp hw
  obtain ⟨es, he, hes⟩ := (hb.sound hC hn hf hr).2.emitted
  simp only [List.nil_append] at he
  rw [he] at hpb
  obtain ⟨h1, h2⟩ := hes pb hpb
  exact hb.exact hw (h1 _ (by rw [hh]; exact Blk.only_self _)) h2

/-- From any state reached by a faithful stream in which the block is not remembered as completed or dropped: when all messages
arrive (again) the block is emitted (again). -/
theorem emitted_again {C : Codec} (hC : C.Lawful) {env : Env} {schema : List RegexpPair} {a : BlockArgs}
    {subs : Hash → SubArgs} {ms : List Msg} (hp : Produced C schema a subs ms) (hw : WellFormed schema a subs)
    {cfg : Config} {mp mp1 mp2 : MP} {before after : List RMsg} (hn : newMP cfg = .ok mp) (hk : Keeps env a.number)
    (hf : Faithful a.hash ms (before ++ after)) (hr1 : mp.run C env before = .ok mp1)
    (hcm : mp1.completed.contains a.hash = false) (hol : mp1.oldBlocks.contains a.hash = false)
    (ha : AllArrive ms after) (hr2 : mp1.run C env after = .ok mp2) :
    ∃ es pb, mp2.emitted = mp1.emitted ++ es ∧ pb ∈ es ∧ pb.hash = a.hash := by
  obtain ⟨b, hb⟩ := bridge hC hp hw
  have hf1 : Faithful a.hash ms before := fun m hm => hf m (by simp [hm])
  have hf2 : Faithful a.hash ms after := fun m hm => hf m (by simp [hm])
  have hk' : Keeps env (blkOf schema a subs b).hdr.number := by simp only [blkOf]; rw [hb.hdr.number]; exact hk
  obtain ⟨h1, h2, h3⟩ := Blk.sound_run (tracked := cfg.tracked) (frp := cfg.frp) (E0 := []) hC hb.wf hk' (Base.newMP hn)
    (LiftInv.newMP hn trivial) (newMP_calm _ hn) (fun m hm => hb.own hf1 hm) hr1
  refine Blk.deliver hC hb.wf hk' h1 h2 h3 hcm hol (fun m hm => hb.own hf2 hm) ?_ hr2
  intro j hj
  obtain ⟨x, hx, hxk⟩ := hb.all j (hj.imp And.left id)
  obtain ⟨m, hm, hk1, _⟩ := ha x hx
  exact ⟨m, hm, hk1.trans hxk⟩

theorem newMP_forgets {cfg : Config} {mp : MP} (hn : newMP cfg = .ok mp) (h : Hash) :
    mp.completed.contains h = false ∧ mp.oldBlocks.contains h = false := by
  unfold newMP at hn
  split at hn
  · simp at hn
  · simp at hn; subst hn; exact ⟨by simp [LRU.contains, LRU.new], rfl⟩

/-- **C01**: a fully delivered block is emitted (exactly), whatever the order and duplication, with arbitrary messages of other
blocks in between, as long as these do not make the processor fault (see `C14_total` for when they do not) and the block is not
evicted. -/
theorem C01_delivered {C : Codec} (hC : C.Lawful) {env : Env} {schema : List RegexpPair} {a : BlockArgs}
    {subs : Hash → SubArgs} {ms : List Msg} (hp : Produced C schema a subs ms) (hw : WellFormed schema a subs)
    {cfg : Config} {mp mp' : MP} {received : List RMsg} (hn : newMP cfg = .ok mp) (hk : Keeps env a.number)
    (hf : Faithful a.hash ms received) (ha : AllArrive ms received) (hr : mp.run C env received = .ok mp') :
    ∃ pb ∈ mp'.emitted, Exact cfg.tracked schema a subs pb := by
  have h0 := newMP_forgets hn a.hash
  obtain ⟨es, pb, h1, h2, h3⟩ := emitted_again hC hp hw hn hk (before := []) hf rfl h0.1 h0.2 ha hr
  have hm : pb ∈ mp'.emitted := by rw [h1]; simp [h2]
  exact ⟨pb, hm, C02_emitted_exact hC hp hw hn hf hr hm h3⟩

/-- Exactly the same block twice. -/
theorem exact_same {tracked : GoStr → Bool} {schema : List RegexpPair} {a : BlockArgs} {subs : Hash → SubArgs} {pb pb' : PB}
    (h : Exact tracked schema a subs pb) (h' : Exact tracked schema a subs pb') : SameContent pb pb' := by
  refine ⟨h.hash.trans h'.hash.symm, h.number.trans h'.number.symm, h.parent.trans h'.parent.symm, ?_, ?_, ?_⟩
  · have h1 := h.weight; have h2 := h'.weight; omega
  · intro k
    apply Option.ext
    intro v
    rw [h.values, h'.values]
  · intro k
    rw [Bool.eq_iff_iff, h.deletes, h'.deletes]

/-- **C04**: two consumers with the same filter that get every message at least once, in whatever orders and with whatever
duplicates, both emit the block, and all their emissions of it have the same content. -/
theorem C04_order_independent {C : Codec} (hC : C.Lawful) {env env' : Env} {schema : List RegexpPair} {a : BlockArgs}
    {subs : Hash → SubArgs} {ms : List Msg} (hp : Produced C schema a subs ms) (hw : WellFormed schema a subs)
    {cfg cfg' : Config} (ht : cfg.tracked = cfg'.tracked) {mp mp' mq mq' : MP} {r r' : List RMsg}
    (hn : newMP cfg = .ok mp) (hn' : newMP cfg' = .ok mq) (hk : Keeps env a.number) (hk' : Keeps env' a.number)
    (hf : Faithful a.hash ms r) (hf' : Faithful a.hash ms r') (ha : AllArrive ms r) (ha' : AllArrive ms r')
    (hr : mp.run C env r = .ok mp') (hr' : mq.run C env' r' = .ok mq') :
    (∃ pb ∈ mp'.emitted, pb.hash = a.hash) ∧ (∃ pb ∈ mq'.emitted, pb.hash = a.hash) ∧
    ∀ pb ∈ mp'.emitted, ∀ pb' ∈ mq'.emitted, pb.hash = a.hash → pb'.hash = a.hash → SameContent pb pb' := by
  obtain ⟨p1, h1, e1⟩ := C01_delivered hC hp hw hn hk hf ha hr
  obtain ⟨p2, h2, e2⟩ := C01_delivered hC hp hw hn' hk' hf' ha' hr'
  refine ⟨⟨p1, h1, e1.hash⟩, ⟨p2, h2, e2.hash⟩, ?_⟩
  intro pb hpb pb' hpb' hh hh'
  have x := C02_emitted_exact hC hp hw hn hf hr hpb hh
  have y := C02_emitted_exact hC hp hw hn' hf' hr' hpb' hh'
  rw [← ht] at y
  exact exact_same x y

/-- A Reorg message clears what is remembered about emitted and dropped blocks. -/
theorem reorg_clears {C : Codec} {env : Env} {mp mp' : MP} {m : RMsg} {e : Option Err} (hm : IsReorg m)
    (hr : mp.processMessage C env m = .ok (mp', e)) (h : Hash) :
    mp'.completed.contains h = false ∧ mp'.oldBlocks.contains h = false ∧ mp'.emitted = mp.emitted := by
  have hd : m.key.headD 0 = ReorgType := by
    unfold IsReorg at hm
    cases hk : m.key with
    | nil => rw [hk] at hm; simp at hm
    | cons x l => rw [hk] at hm; simp at hm; simp [hm, ReorgType]
  have hem := emitted_of_log (begin_fields env mp m).2.2.1
  unfold MP.processMessage at hr
  generalize MP.step C env (fun _ _ => .error .hang) = self at hr
  unfold MP.step at hr
  generalize mp.begin env m = mp1 at hr hem
  simp only [] at hr
  split at hr
  · simp at hr
  · unfold MP.onReorg at hr
    simp only [] at hr
    split at hr
    · simp at hr; obtain ⟨rfl, _⟩ := hr
      exact ⟨by simp [LRU.contains, LRU.new], rfl, hem⟩
    · simp at hr; obtain ⟨rfl, _⟩ := hr
      refine ⟨by simp [LRU.contains, LRU.new], rfl, ?_⟩
      rw [← hem]; unfold MP.emitted; rw [List.filterMap_append]; simp

/-- **C11**, second half: after a Reorg message, whatever happened before (the block may have been emitted or dropped), the
block is emitted again when its messages arrive again. -/
theorem C11_reopens {C : Codec} (hC : C.Lawful) {env : Env} {schema : List RegexpPair} {a : BlockArgs}
    {subs : Hash → SubArgs} {ms : List Msg} (hp : Produced C schema a subs ms) (hw : WellFormed schema a subs)
    {cfg : Config} {mp mp0 mp1 mp2 : MP} {before after : List RMsg} {m : RMsg} {e : Option Err} (hn : newMP cfg = .ok mp)
    (hk : Keeps env a.number) (hf : Faithful a.hash ms (before ++ m :: after)) (hr0 : mp.run C env before = .ok mp0)
    (hm : IsReorg m) (hr1 : mp0.processMessage C env m = .ok (mp1, e)) (ha : AllArrive ms after)
    (hr2 : mp1.run C env after = .ok mp2) :
    ∃ es pb, mp2.emitted = mp0.emitted ++ es ∧ pb ∈ es ∧ pb.hash = a.hash := by
  obtain ⟨h1, h2, h3⟩ := reorg_clears hm hr1 a.hash
  have hrun : ∀ (l : List RMsg) (s s' : MP), s.run C env l = .ok s' → ∀ s'' e, s'.processMessage C env m = .ok (s'', e) →
      s.run C env (l ++ [m]) = .ok s'' := by
    intro l
    induction l with
    | nil =>
      intro s s' h s'' e h'
      simp [MP.run] at h; subst h
      simp [MP.run, h']
    | cons x l ih =>
      intro s s' h s'' e h'
      simp only [MP.run, List.cons_append] at h ⊢
      match hx : s.processMessage C env x with
      | .error f => rw [hx] at h; simp at h
      | .ok (t, e1) =>
        rw [hx] at h
        exact ih t s' h s'' e h'
  obtain ⟨es, pb, e1, e2, e3⟩ := emitted_again hC hp hw hn hk (before := before ++ [m]) (after := after)
    (by simpa using hf) (hrun _ _ _ hr0 _ _ hr1) h1 h2 ha hr2
  exact ⟨es, pb, by rw [e1, h3], e2, e3⟩

/-! ## C14 -/

/-- A block and its messages. -/
structure SentBlock where
  schema : List RegexpPair
  args : BlockArgs
  subs : Hash → SubArgs
  msgs : List Msg

/-- The block was produced correctly. -/
def SentBlock.Correct (C : Codec) (s : SentBlock) : Prop :=
  Produced C s.schema s.args s.subs s.msgs ∧ WellFormed s.schema s.args s.subs

/-- A block without content, for hashes that do not occur. -/
def emptyBlk (h : Hash) : Blk := ⟨h, ⟨0, [], Hash.zero, GMap.empty⟩, GMap.empty, GMap.empty, id, fun _ => []⟩

theorem emptyBlk_wf (h : Hash) : (emptyBlk h).WF where
  upd_ne _ _ hk := by simp [emptyBlk] at hk
  key _ hk := by simp [emptyBlk, GMap.keys, GMap.empty] at hk
  count _ _ hr := by simp [emptyBlk] at hr
  counted _ hk := by simp [emptyBlk, GMap.keys, GMap.empty] at hk
  free _ _ _ hr := by simp [emptyBlk] at hr
  inlineUpd _ _ hr := by simp [emptyBlk] at hr
  inlineDel _ _ hr := by simp [emptyBlk] at hr
  subUpd _ _ _ _ _ hr := by simp [emptyBlk] at hr
  subInline _ _ _ _ _ _ hr := by simp [emptyBlk] at hr
  subFun _ _ _ _ _ _ _ _ hr := by simp [emptyBlk] at hr
  subDel _ _ _ _ hr := by simp [emptyBlk] at hr
  size _ _ := by simp [emptyBlk]

/-- Every message is a copy of a message of one of the blocks, or has no content. -/
def FromBlocks (blocks : SentBlock → Prop) (received : List RMsg) : Prop :=
  ∀ m ∈ received, (∃ s, blocks s ∧ Copy s.msgs m) ∨ NoContent m

theorem copy_hash {C : Codec} (hC : C.Lawful) {s : SentBlock} (hs : s.Correct C) {m : RMsg} (hc : Copy s.msgs m) :
    blockOf m.key = s.args.hash := by
  obtain ⟨b, hb⟩ := bridge hC hs.1 hs.2
  obtain ⟨x, hx, h1, _⟩ := hc
  obtain ⟨i, hi, hm⟩ := hb.mine x hx
  unfold blockOf
  rw [h1, hi, keyOf_hash]
  cases hm <;> rfl

/-- A stream of correctly produced blocks with different hashes is faithful for each. -/
theorem faithful_of_blocks {C : Codec} (hC : C.Lawful) {blocks : SentBlock → Prop} (hb : ∀ s, blocks s → s.Correct C)
    (hd : ∀ s s', blocks s → blocks s' → s.args.hash = s'.args.hash → s = s') {received : List RMsg}
    (hr : FromBlocks blocks received) {s : SentBlock} (hs : blocks s) : Faithful s.args.hash s.msgs received := by
  intro m hm hh
  rcases hr m hm with ⟨s', h1, h2⟩ | h
  · have := hd s' s h1 hs ((copy_hash hC (hb s' h1) h2).symm.trans hh)
    subst this; exact .inl h2
  · exact .inr h

/-- **C14**: a stream of messages of correctly produced blocks (with different hashes), in any order and with any duplication,
never faults, with or without FailedReconstructPanic. -/
theorem C14_total {C : Codec} (hC : C.Lawful) {env : Env} {blocks : SentBlock → Prop} (hb : ∀ s, blocks s → s.Correct C)
    (hd : ∀ s s', blocks s → blocks s' → s.args.hash = s'.args.hash → s = s') {cfg : Config} {mp : MP}
    (hn : newMP cfg = .ok mp) {received : List RMsg} (hr : FromBlocks blocks received) :
    ∃ mp', mp.run C env received = .ok mp' := by
  classical
  have hex : ∀ h, ∃ B : Blk, B.WF ∧ B.hash = h ∧
      ∀ m ∈ received, hashOf m.key = h → Blk.Own C B m := by
    intro h
    by_cases hs : ∃ s, blocks s ∧ s.args.hash = h
    · obtain ⟨s, h1, rfl⟩ := hs
      obtain ⟨b, hbr⟩ := bridge hC (hb s h1).1 (hb s h1).2
      exact ⟨_, hbr.wf, rfl, fun m hm hh => hbr.own (faithful_of_blocks hC hb hd hr h1) hm hh⟩
    · refine ⟨emptyBlk h, emptyBlk_wf h, rfl, fun m hm hh => ?_⟩
      rcases hr m hm with ⟨s, h1, h2⟩ | ⟨h1, t, h2, h3⟩
      · exact absurd ⟨s, h1, (copy_hash hC (hb s h1) h2).symm.trans hh⟩ hs
      · refine .inr ⟨by omega, ?_⟩
        have : m.key.headD 0 = t := by
          cases hk : m.key with
          | nil => rw [hk] at h2; simp at h2
          | cons x l => rw [hk] at h2; simp at h2; simp [h2]
        rw [this]
        exact UInt8.not_lt.mpr h3
  have hL := Blk.lift (C := C) (env := env) (tracked := cfg.tracked) (frp := cfg.frp) hC false
    (fun h => some (Classical.choose (hex h)))
    (fun h B hB => by cases hB; exact ⟨(Classical.choose_spec (hex h)).1, (Classical.choose_spec (hex h)).2.1⟩)
    (.inr fun h => ⟨_, rfl⟩)
  obtain ⟨mp', h1, _⟩ := (hL.parts (E0 := [])).toParts.run_total (ms := received) (mp := mp)
    (fun m hm B hB => by cases hB; exact (Classical.choose_spec (hex (hashOf m.key))).2.2 m hm rfl)
    ⟨Base.newMP hn, LiftInv.newMP hn trivial⟩
  exact ⟨mp', h1⟩

/-- **C01** without assumptions about faults: when everything received belongs to correctly produced blocks, the processor
works through it and emits every block that arrived completely. -/
theorem C01_delivered_total {C : Codec} (hC : C.Lawful) {env : Env} {blocks : SentBlock → Prop}
    (hb : ∀ s, blocks s → s.Correct C) (hd : ∀ s s', blocks s → blocks s' → s.args.hash = s'.args.hash → s = s')
    {cfg : Config} {mp : MP} (hn : newMP cfg = .ok mp) {received : List RMsg} (hr : FromBlocks blocks received) :
    ∃ mp', mp.run C env received = .ok mp' ∧ ∀ s, blocks s → Keeps env s.args.number → AllArrive s.msgs received →
      ∃ pb ∈ mp'.emitted, Exact cfg.tracked s.schema s.args s.subs pb := by
  obtain ⟨mp', h⟩ := C14_total hC (env := env) hb hd hn hr
  exact ⟨mp', h, fun s hs hk ha => C01_delivered hC (hb s hs).1 (hb s hs).2 hn hk (faithful_of_blocks hC hb hd hr hs) ha h⟩

/-! ## C09 -/

/-- The messages recorded in an emitted block suffice to rebuild it. -/
theorem recorded_needed {C : Codec} (hC : C.Lawful) {schema : List RegexpPair} {a : BlockArgs} {subs : Hash → SubArgs}
    {ms : List Msg} {b : Batch} (hb : Bridge C schema a subs ms b) {tracked : GoStr → Bool} {r1 : List RMsg}
    (hf : Faithful a.hash ms r1) {pb : PB} (hi : Blk.Inv C (blkOf schema a subs b) tracked pb) (hr : pb.ready = true)
    (hp : BlockProv C (· ∈ r1) tracked a.hash pb) (j : MsgId)
    (hj : ((blkOf schema a subs b).Part j ∧ Blk.Needed (blkOf schema a subs b) tracked j) ∨ j = .batch a.hash) :
    ∃ m ∈ r1, m.key = keyOf C j ∧ Recorded pb m := by
  obtain ⟨hd, b', h1, h2, h3, _, _, _, hpb⟩ := hp.head
  have own : ∀ m t, Of (· ∈ r1) a.hash t m → t < 5 → ∃ i, m.key = keyOf C i ∧
      Blk.Mine C (blkOf schema a subs b) i m.value ∧ i.type = t := by
    intro m t ho ht
    have hD : m.key.headD 0 = t := by
      have := ho.type
      cases hk : m.key with
      | nil => rw [hk] at this; simp at this
      | cons x l => rw [hk] at this; simp at this; simp [this]
    rcases hb.own hf ho.mem ho.block with ⟨i, h1, h2⟩ | ⟨_, h5⟩
    · exact ⟨i, h1, h2, by rw [← keyOf_headD C i, ← h1, hD]⟩
    · rw [hD] at h5; exact absurd ht h5
  obtain ⟨i0, hk0, hm0, ht0⟩ := own hd 0 h1 (by decide)
  have hb' : Blk.HdrLike b' b := by
    generalize hv : hd.value = v at hm0 h2
    cases hm0 with
    | header v c hdec hl => rw [hdec] at h2; cases h2; exact hl
    | _ => simp [MsgId.type] at ht0
  have hex := hi.exact hb.wf hr
  rcases hj with ⟨hj, hn⟩ | rfl
  · cases hj with
    | upd k hk =>
      obtain ⟨v, hv⟩ := (GMap.mem_keys_iff _).mp hk
      rcases hpb.values k v ((hex.1 k v).mpr (.inr (.inl ⟨hv, hn⟩))) with
        ⟨r, ha, hrv⟩ | ⟨m, x, r, ho, hkk, hvv, hrec, _, _, _⟩ | ⟨m, u, x, r, ho, hu, huk, hrec, ha, hx, hz⟩
      · exact absurd hk (hb.wf.inlineUpd k r (by rw [← ha.1]; exact (hb'.entry k).symm) (by rw [hrv]; exact hb.wf.upd_ne k v hv))
      · refine ⟨m, ho.mem, ?_, hrec⟩
        obtain ⟨i, e1, e2, e3⟩ := own m 3 ho (by decide)
        generalize m.value = w at e2
        cases e2 with
        | upd k' w _ =>
          rw [e1, keyOf_drop33] at hkk
          have : k' = k := hkk
          rw [e1, this]
        | _ => simp [MsgId.type] at e3
      · obtain ⟨i, e1, e2, e3⟩ := own m 2 ho (by decide)
        generalize m.value = w at e2 hu
        cases e2 with
        | subMsg id n rr q w hs hrr hdec hl =>
          rw [hu] at hdec; cases hdec
          exact absurd hk (hb.wf.subUpd id rr k v hs (List.mem_of_getElem? hrr) (by rw [← hl.upd]; exact huk))
        | _ => simp [MsgId.type] at e3
    | del k hk =>
      rcases hpb.deletes k ((hex.2 k).mpr (.inr (.inl ⟨(GMap.contains_iff_mem_keys _).mpr hk, hn⟩))) with
        ⟨r, ha, hrv⟩ | ⟨m, x, r, ho, hkk, hrec, _, _, _⟩ | ⟨m, u, x, r, ho, hu, huk, hrec, ha, hx, hz⟩
      · exact absurd hk (hb.wf.inlineDel k r (by rw [← ha.1]; exact (hb'.entry k).symm) hrv)
      · refine ⟨m, ho.mem, ?_, hrec⟩
        obtain ⟨i, e1, e2, e3⟩ := own m 4 ho (by decide)
        generalize m.value = w at e2
        cases e2 with
        | del k' w _ =>
          rw [e1, keyOf_drop33] at hkk
          have : k' = k := hkk
          rw [e1, this]
        | _ => simp [MsgId.type] at e3
      · obtain ⟨i, e1, e2, e3⟩ := own m 2 ho (by decide)
        generalize m.value = w at e2 hu
        cases e2 with
        | subMsg id n rr q w hs hrr hdec hl =>
          rw [hu] at hdec; cases hdec
          exact absurd hk (hb.wf.subDel id rr k hs (List.mem_of_getElem? hrr) ((hl.del k).mp huk))
        | _ => simp [MsgId.type] at e3
    | subHeader id hs =>
      have hl : (blkOf schema a subs b).Live tracked id := hn
      obtain ⟨bits, hbits⟩ : ∃ bits, pb.batches.get? id = some bits := by
        cases hg : pb.batches.get? id with
        | some bits => exact ⟨bits, rfl⟩
        | none =>
          have := (hi.pending id).mpr ⟨hl, hg⟩
          unfold PB.ready at hr
          simp only [Bool.and_eq_true, List.isEmpty_iff] at hr
          simp [GMap.contains, GMap.get?, hr.1.1, GMap.look] at this
      obtain ⟨_, m, ho, hid, hrec, _⟩ := hpb.batches id bits hbits
      refine ⟨m, ho.mem, ?_, hrec⟩
      obtain ⟨i, e1, e2, e3⟩ := own m 1 ho (by decide)
      generalize m.value = w at e2
      cases e2 with
      | subHeader id' w _ _ =>
        rw [e1, Blk.keyOf_sub_id] at hid
        rw [e1, hid]
      | _ => simp [MsgId.type] at e3
    | subMsg id n hs hlt =>
      have hl : (blkOf schema a subs b).Live tracked id := hn
      obtain ⟨bits, hbits⟩ : ∃ bits, pb.batches.get? id = some bits := by
        cases hg : pb.batches.get? id with
        | some bits => exact ⟨bits, rfl⟩
        | none =>
          have := (hi.pending id).mpr ⟨hl, hg⟩
          unfold PB.ready at hr
          simp only [Bool.and_eq_true, List.isEmpty_iff] at hr
          simp [GMap.contains, GMap.get?, hr.1.1, GMap.look] at this
      have hlen := (hi.bits id bits hbits).2.1
      have htrue : bits[n]? = some true := by
        unfold PB.ready at hr
        simp only [Bool.and_eq_true, List.all_eq_true] at hr
        have hall := hr.2 (id, bits) ((GMap.get?_eq_some_iff _).mp hbits)
        rw [List.getElem?_eq_getElem (by omega)]
        congr 1
        exact hall _ (List.getElem_mem _)
      obtain ⟨m, ho, hid, hidx, hrec⟩ := hpb.bits id bits n hbits htrue
      refine ⟨m, ho.mem, ?_, hrec⟩
      obtain ⟨i, e1, e2, e3⟩ := own m 2 ho (by decide)
      generalize m.value = w at e2
      cases e2 with
      | subMsg id' n' rr q w hs' hrr hdec _ =>
        rw [e1, keyOf_subMsg_id] at hid
        rw [e1, keyOf_subMsg_idx] at hidx
        have hn' : n' < ((blkOf schema a subs b).recs id').length := by
          have := List.getElem?_eq_some_iff.mp hrr
          exact this.1
        have hsz := hb.wf.size id' hs'
        rw [hC.int _ ⟨by omega, by omega⟩] at hidx
        have : n' = n := by have := Option.some.inj hidx; omega
        rw [e1, hid, this]
      | _ => simp [MsgId.type] at e3
  · refine ⟨hd, h1.mem, ?_, h3⟩
    rw [hk0]
    generalize hd.value = w at hm0
    cases hm0 with
    | header => rfl
    | _ => simp [MsgId.type] at ht0

/-- **C09**: if a block was emitted by one consumer, then a fresh consumer with the same filter that is fed, in whatever order,
all messages the first one received from each source at or after the offset recorded in the block's `Resumption()` — and of
this block nothing but copies of its messages — emits the block again, with the same content. -/
theorem C09_resume {C : Codec} (hC : C.Lawful) {env env' : Env} {schema : List RegexpPair} {a : BlockArgs}
    {subs : Hash → SubArgs} {ms : List Msg} (hp : Produced C schema a subs ms) (hw : WellFormed schema a subs)
    {cfg cfg' : Config} (ht : cfg.tracked = cfg'.tracked) {mp mp' mq mq' : MP} {r r' : List RMsg}
    (hn : newMP cfg = .ok mp) (hf : Faithful a.hash ms r) (hr : mp.run C env r = .ok mp')
    {pb : PB} (hpb : pb ∈ mp'.emitted) (hh : pb.hash = a.hash)
    (hn' : newMP cfg' = .ok mq) (hk' : Keeps env' a.number) (hf' : Faithful a.hash ms r')
    (hres : ∀ m ∈ r, (∃ o, resumeAt pb m.source = some o ∧ o ≤ m.offset) → m ∈ r')
    (hr' : mq.run C env' r' = .ok mq') :
    ∃ pb' ∈ mq'.emitted, SameContent pb pb' := by
  obtain ⟨b, hb⟩ := bridge hC hp hw
  obtain ⟨es, he, hes⟩ := (hb.sound hC hn hf hr).2.emitted
  simp only [List.nil_append] at he
  obtain ⟨h1, h2⟩ := hes pb (he ▸ hpb)
  have hinv := h1 _ (by rw [hh]; exact Blk.only_self _)
  have hprov := ((prov_parts C env (· ∈ r) (run_ok_len hr) cfg.tracked cfg.frp).emitted hn
    (by intro s o hs; simp at hs) (fun m hm => hm) hr pb hpb).1
  rw [hh] at hprov
  have hneed := recorded_needed hC hb hf hinv h2 hprov
  have hk2 : Keeps env' (blkOf schema a subs b).hdr.number := by simp only [blkOf]; rw [hb.hdr.number]; exact hk'
  have h0 := newMP_forgets hn' a.hash
  obtain ⟨es', pb', g1, g2, g3⟩ := Blk.deliver (tracked := cfg'.tracked) (frp := cfg'.frp) (E0 := []) hC hb.wf hk2
    (Base.newMP hn') (LiftInv.newMP hn' trivial)
    (newMP_calm _ hn') h0.1 h0.2 (fun m hm => hb.own hf' hm) (by
      intro j hj
      rw [← ht] at hj
      obtain ⟨m, hm, hmk, o, ho, hle⟩ := hneed j hj
      refine ⟨m, hres m hm ⟨o, ?_, hle⟩, hmk⟩
      unfold resumeAt; rw [ho]; rfl) hr'
  have hm' : pb' ∈ mq'.emitted := by rw [g1]; simp [g2]
  refine ⟨pb', hm', ?_⟩
  have x := C02_emitted_exact hC hp hw hn hf hr hpb hh
  have y := C02_emitted_exact hC hp hw hn' hf' hr' hm' g3
  rw [← ht] at y
  exact exact_same x y

/-! ## C16 and examples -/

theorem routes_lit {p t k pre topic : GoStr} : Routes [⟨litRegexp p, t⟩] k pre topic ↔ p.isPrefixOf k = true ∧ pre = p ∧ p ≠ [] ∧ topic = t := by
  rw [← firstMatch_some_iff]
  unfold firstMatch
  simp only [List.findSome?_cons, List.findSome?_nil, litRegexp]
  by_cases h : p.isPrefixOf k = true
  · by_cases hp : p = []
    · simp [hp]
    · simp only [h, if_true, hp, ne_eq, not_false_eq_true, Option.some.injEq, Prod.mk.injEq, true_and]
      constructor
      · rintro ⟨a, b⟩; exact ⟨a.symm, b.symm⟩
      · rintro ⟨a, b⟩; exact ⟨a.symm, b.symm⟩
  · simp [h]

/-- The sub-batch of the example block: a delete and an update. -/
def exSubs (_ : Hash) : SubArgs := ⟨[str "state/sub/z"], GMap.empty.insert (str "state/sub/y") [8]⟩

theorem ex_dirs (k : GoStr) (last : GoStr) (h : (47 : UInt8) ∉ last) (hk : k = dirs [str "state"] ++ last) :
    TidyKey k ∧ DirPrefix (str "state/") k := by
  have hT : ∀ s ∈ [str "state"], Tidy s := by decide +kernel
  exact ⟨⟨[str "state"], last, hT, h, hk⟩, .inr ⟨[str "state"], last, by simp, hT, by decide +kernel, hk⟩⟩

theorem ex_keys {k : GoStr} (hk : k ∈ exBlock.updates.keys ∨ k ∈ exBlock.deletes.keys) :
    k = str "state/a" ∨ k = str "state/b" ∨ k = str "head" ∨ k = str "state/c" ∨ k = str "old" := by
  have h1 : exBlock.updates.keys = [str "state/a", str "state/b", str "head"] := by decide +kernel
  have h2 : exBlock.deletes.keys = [str "state/c", str "old"] := by decide +kernel
  rw [h1, h2] at hk
  simp only [List.mem_cons, List.not_mem_nil, or_false] at hk
  rcases hk with (h | h | h) | (h | h)
  · exact .inl h
  · exact .inr (.inl h)
  · exact .inr (.inr (.inl h))
  · exact .inr (.inr (.inr (.inl h)))
  · exact .inr (.inr (.inr (.inr h)))

theorem get_insert_cases {K V : Type} [DecidableEq K] {m : GMap K V} {k k' : K} {v v' : V} (h : (m.insert k v).get? k' = some v') :
    (k' = k ∧ v' = v) ∨ m.get? k' = some v' := by
  rw [GMap.get?_insert] at h
  split at h
  · rename_i e; cases h; exact .inl ⟨e.symm, rfl⟩
  · exact .inr h

theorem ex_batches {path : GoStr} {id : Hash} (h : exBlock.batches.get? path = some id) : path = str "state/sub" ∧ id = exHash 9 := by
  rcases get_insert_cases h with h | h
  · exact h
  · simp at h

theorem ex_updates {k : GoStr} {v : Bytes} (h : exBlock.updates.get? k = some v) :
    (k = str "head" ∧ v = [3]) ∨ (k = str "state/b" ∧ v = [2]) ∨ (k = str "state/a" ∧ v = [1]) := by
  rcases get_insert_cases h with h | h
  · exact .inl h
  · rcases get_insert_cases h with h | h
    · exact .inr (.inl h)
    · rcases get_insert_cases h with h | h
      · exact .inr (.inr h)
      · simp at h

theorem ex_sub {id : Hash} {k : GoStr} {v : Bytes} (h : (exSubs id).updates.get? k = some v) : k = str "state/sub/y" ∧ v = [8] := by
  rcases get_insert_cases h with h | h
  · exact h
  · simp at h

/-- The example block satisfies all conditions. -/
theorem exBlock_wf : WellFormed exProducer.schema exBlock exSubs where
  values k v h := by rcases ex_updates h with ⟨_, rfl⟩ | ⟨_, rfl⟩ | ⟨_, rfl⟩ <;> simp
  weight := by decide
  dirs k pre topic hk hr := by
    obtain ⟨h1, rfl, _, _⟩ := routes_lit.mp hr
    rcases ex_keys hk with rfl | rfl | rfl | rfl | rfl
    · exact ex_dirs _ (str "a") (by decide +kernel) (by decide +kernel)
    · exact ex_dirs _ (str "b") (by decide +kernel) (by decide +kernel)
    · exact absurd h1 (by decide +kernel)
    · exact ex_dirs _ (str "c") (by decide +kernel) (by decide +kernel)
    · exact absurd h1 (by decide +kernel)
  nested x y hx hy _ := by
    obtain ⟨_, _, _, h1⟩ := hx
    obtain ⟨_, _, _, h2⟩ := hy
    rw [(routes_lit.mp h1).2.1, (routes_lit.mp h2).2.1]
  inline k _ hk := by
    obtain ⟨v, hv⟩ := (GMap.mem_keys_iff _).mp hk
    rcases ex_updates hv with ⟨rfl, _⟩ | ⟨rfl, _⟩ | ⟨rfl, _⟩ <;> decide +kernel
  subUpd path id k _ hk := by
    obtain ⟨v, hv⟩ := (GMap.mem_keys_iff _).mp hk
    obtain ⟨rfl, _⟩ := ex_sub hv
    decide +kernel
  subFun path id k path' id' hp _ hp' _ := by rw [(ex_batches hp).2, (ex_batches hp').2]
  subDel path id k _ hk hd := by
    simp [exSubs] at hk; subst hk
    exact absurd hd (by decide +kernel)
  size := by decide +kernel
  subSize path id _ := by
    simp only [exSubs]; decide +kernel
  number := by decide
  lenWeight := by decide +kernel
  lenBatches := by decide +kernel
  lenUpd k v h := by rcases ex_updates h with ⟨rfl, rfl⟩ | ⟨rfl, rfl⟩ | ⟨rfl, rfl⟩ <;> decide +kernel
  lenDel k hk := by rcases ex_keys (.inr hk) with rfl | rfl | rfl | rfl | rfl <;> decide +kernel
  lenPath k hk := by
    obtain ⟨id, h⟩ := (GMap.mem_keys_iff _).mp hk
    obtain ⟨rfl, _⟩ := ex_batches h
    decide +kernel
  lenSubUpd path id k v _ hk := by obtain ⟨rfl, rfl⟩ := ex_sub hk; decide +kernel
  lenSubDel path id _ := by
    simp only [exSubs]; decide +kernel

/-- Whenever `AddBlock` succeeds, the block can be completed by `SendBatch` calls. -/
theorem sentBy_exists {C : Codec} {o : MapOrder} {p p' : Producer} {a : BlockArgs} {tm : GMap GoStr (List Msg)}
    (h : addBlock' C o p a = (p', .ok tm)) (subs : Hash → SubArgs) : ∃ ms, SentBy C p.schema a subs ms := by
  obtain ⟨b, _, _, _, _, _, _, _, _, h9, _⟩ := addBlock_ok h
  let sent : Hash → List Msg := fun id => subMsgs C a.hash id (subRecords (subs id).deletes (sortedKeys (subs id).updates) (subs id).updates)
  refine ⟨flat tm ++ a.batches.entries.flatMap (fun e => sent e.2), o, p, p', tm, sent, rfl, h, ?_, ?_⟩
  · intro path id hp
    obtain ⟨k, _, hk⟩ := h9 id (List.mem_map.mpr ⟨(path, id), (GMap.get?_eq_some_iff _).mp hp, rfl⟩)
    refine ⟨.plain, p', _, _, rfl, sendBatch_some hk, ?_⟩
    simp [flat, GMap.insert, GMap.empty, GMap.put, sent]
  · intro m
    simp only [List.mem_append, List.mem_flatMap]
    constructor
    · rintro (h | ⟨e, he, hm⟩)
      · exact .inl h
      · exact .inr ⟨e.1, e.2, (GMap.get?_eq_some_iff _).mpr he, hm⟩
    · rintro (h | ⟨path, id, hp, hm⟩)
      · exact .inl h
      · exact .inr ⟨(path, id), (GMap.get?_eq_some_iff _).mp hp, hm⟩

theorem produced_exists {C : Codec} {o : MapOrder} {p p' : Producer} {a : BlockArgs} {tm : GMap GoStr (List Msg)}
    (h : addBlock' C o p a = (p', .ok tm)) (subs : Hash → SubArgs) : ∃ ms, Produced C p.schema a subs ms := by
  obtain ⟨ms, hs⟩ := sentBy_exists h subs
  exact ⟨ms, hs.produced⟩

theorem exBlock_produced : ∃ ms, Produced Avro.codec exProducer.schema exBlock exSubs ms := by
  obtain ⟨p', tm, h⟩ := exBlock_ok
  exact produced_exists h exSubs

theorem exEnv_keeps (n : Int) : Keeps exEnv n := by intro t x hx; simp [exEnv] at hx

/-- The messages as received from one source. -/
def recv (ms : List Msg) : List RMsg := ms.zipIdx.map (fun e => at_ e.1 e.2 (str "s:0"))

theorem recv_copy {ms ms' : List Msg} (hs : ∀ x ∈ ms', x ∈ ms) {m : RMsg} (hm : m ∈ recv ms') : Copy ms m := by
  unfold recv at hm
  obtain ⟨e, he, rfl⟩ := List.mem_map.mp hm
  exact ⟨e.1, hs _ (by obtain ⟨_, _, h⟩ := List.mem_zipIdx he; rw [h]; exact List.getElem_mem _), rfl, rfl⟩

theorem recv_exact {ms : List Msg} {x : Msg} (hx : x ∈ ms) : ∃ m ∈ recv ms, m.key = x.key ∧ m.value = x.value := by
  obtain ⟨i, hi, rfl⟩ := List.mem_iff_getElem.mp hx
  refine ⟨at_ ms[i] i (str "s:0"), List.mem_map.mpr ⟨(ms[i], i), ?_, rfl⟩, rfl, rfl⟩
  rw [List.mem_iff_getElem?]
  exact ⟨i, by simp [hi]⟩

theorem recv_all (ms : List Msg) : AllArrive ms (recv ms) := by
  intro x hx
  obtain ⟨m, hm, h1, h2⟩ := recv_exact hx
  exact ⟨m, hm, h1, x, hx, h1, h2⟩

/-- The hypotheses of C01, C02, C04, C09 and C14 are satisfiable: the messages of the example block, twice in reverse order. -/
theorem exDelivery : ∃ ms mp', Produced Avro.codec exProducer.schema exBlock exSubs ms ∧
    Faithful exBlock.hash ms (recv ms.reverse ++ recv ms.reverse) ∧ AllArrive ms (recv ms.reverse ++ recv ms.reverse) ∧
    exMP.run Avro.codec exEnv (recv ms.reverse ++ recv ms.reverse) = .ok mp' ∧
    ∃ pb ∈ mp'.emitted, Exact exCfg.tracked exProducer.schema exBlock exSubs pb := by
  obtain ⟨ms, h⟩ := exBlock_produced
  have hc : ∀ m ∈ recv ms.reverse ++ recv ms.reverse, Copy ms m := by
    intro m hm
    exact recv_copy (ms' := ms.reverse) (by simp) ((List.mem_append.mp hm).elim id id)
  have hf : Faithful exBlock.hash ms (recv ms.reverse ++ recv ms.reverse) := fun m hm _ => .inl (hc m hm)
  have ha : AllArrive ms (recv ms.reverse ++ recv ms.reverse) := by
    intro x hx
    obtain ⟨m, h1, h2, y, h3, h4⟩ := recv_all ms.reverse x (by simpa using hx)
    exact ⟨m, by simp [h1], h2, y, by simpa using h3, h4⟩
  obtain ⟨mp', hr⟩ := C14_total Avro.codec_lawful (env := exEnv)
    (blocks := fun s => s = ⟨exProducer.schema, exBlock, exSubs, ms⟩)
    (by rintro s rfl; exact ⟨h, exBlock_wf⟩) (by rintro s s' rfl rfl _; rfl) exMP_new
    (received := recv ms.reverse ++ recv ms.reverse) (fun m hm => .inl ⟨_, rfl, hc m hm⟩)
  exact ⟨ms, mp', h, hf, ha, hr, C01_delivered Avro.codec_lawful h exBlock_wf exMP_new (exEnv_keeps _) hf ha hr⟩

/-- Block with an empty value among the matched updates, and one with an empty inline value. -/
def emptyRouted : BlockArgs :=
  { exBlock with updates := (GMap.empty.insert (str "state/a") []).insert (str "state/b") [2], deletes := GMap.empty, batches := GMap.empty }
def emptyInline : BlockArgs :=
  { exBlock with updates := GMap.empty.insert (str "head") [], deletes := GMap.empty, batches := GMap.empty }

def msgsOf (a : BlockArgs) : List Msg := match addBlock' Avro.codec .plain exProducer a with
  | (_, .ok tm) => flat tm
  | _ => []

theorem produced_nobatch {a : BlockArgs} (hb : a.batches = GMap.empty)
    (h : (match (addBlock' Avro.codec .plain exProducer a).2 with | .ok _ => true | .error _ => false) = true) (subs : Hash → SubArgs) :
    Produced Avro.codec exProducer.schema a subs (msgsOf a) := by
  generalize hr : addBlock' Avro.codec .plain exProducer a = r at h
  obtain ⟨p', r⟩ := r
  cases r with
  | error e => simp at h
  | ok tm =>
    refine Spec.SentBy.produced ⟨.plain, exProducer, p', tm, fun _ => [], rfl, hr, ?_, ?_⟩
    · intro path id hp; rw [hb] at hp; simp at hp
    · intro m
      simp [msgsOf, hr]

theorem emptyRouted_shaped : Shaped exProducer.schema emptyRouted exSubs := by
  have hu : ∀ {k v}, emptyRouted.updates.get? k = some v → (k = str "state/b" ∧ v = [2]) ∨ (k = str "state/a" ∧ v = []) := by
    intro k v h
    rcases get_insert_cases h with h | h
    · exact .inl h
    · rcases get_insert_cases h with h | h
      · exact .inr h
      · simp at h
  have hb : ∀ {p i}, ¬ emptyRouted.batches.get? p = some i := by intro p i h; simp [emptyRouted] at h
  have hd : ∀ {k}, ¬ k ∈ emptyRouted.deletes.keys := by intro k h; simp [emptyRouted, GMap.keys, GMap.empty] at h
  refine ⟨by decide, ?_, ?_, ?_, fun _ _ _ h => absurd h hb, fun _ _ _ _ _ h => absurd h hb, fun _ _ _ h => absurd h hb,
    by decide +kernel, fun _ _ h => absurd h hb, by decide, by decide +kernel, by decide +kernel, ?_, fun _ h => absurd h hd, ?_,
    fun _ _ _ _ h => absurd h hb, fun _ _ h => absurd h hb⟩
  · intro k pre topic hk hr
    obtain ⟨h1, rfl, _, _⟩ := routes_lit.mp hr
    rcases hk with hk | hk
    · obtain ⟨v, hv⟩ := (GMap.mem_keys_iff _).mp hk
      rcases hu hv with ⟨rfl, _⟩ | ⟨rfl, _⟩
      · exact ex_dirs _ (str "b") (by decide +kernel) (by decide +kernel)
      · exact ex_dirs _ (str "a") (by decide +kernel) (by decide +kernel)
    · exact absurd hk hd
  · rintro x y ⟨_, _, _, h1⟩ ⟨_, _, _, h2⟩ _
    rw [(routes_lit.mp h1).2.1, (routes_lit.mp h2).2.1]
  · intro k _ _ h; exact hd h
  · intro k v h; rcases hu h with ⟨rfl, rfl⟩ | ⟨rfl, rfl⟩ <;> decide +kernel
  · intro k hk
    obtain ⟨i, hi⟩ := (GMap.mem_keys_iff _).mp hk
    exact absurd hi hb

theorem emptyInline_shaped : Shaped exProducer.schema emptyInline exSubs := by
  have hu : ∀ {k v}, emptyInline.updates.get? k = some v → k = str "head" ∧ v = [] := by
    intro k v h
    rcases get_insert_cases h with h | h
    · exact h
    · simp at h
  have hb : ∀ {p i}, ¬ emptyInline.batches.get? p = some i := by intro p i h; simp [emptyInline] at h
  have hd : ∀ {k}, ¬ k ∈ emptyInline.deletes.keys := by intro k h; simp [emptyInline, GMap.keys, GMap.empty] at h
  refine ⟨by decide, ?_, ?_, ?_, fun _ _ _ h => absurd h hb, fun _ _ _ _ _ h => absurd h hb, fun _ _ _ h => absurd h hb,
    by decide +kernel, fun _ _ h => absurd h hb, by decide, by decide +kernel, by decide +kernel, ?_, fun _ h => absurd h hd, ?_,
    fun _ _ _ _ h => absurd h hb, fun _ _ h => absurd h hb⟩
  · intro k pre topic hk hr
    obtain ⟨h1, rfl, _, _⟩ := routes_lit.mp hr
    rcases hk with hk | hk
    · obtain ⟨v, hv⟩ := (GMap.mem_keys_iff _).mp hk
      obtain ⟨rfl, _⟩ := hu hv
      exact absurd h1 (by decide +kernel)
    · exact absurd hk hd
  · rintro x y ⟨_, _, _, h1⟩ ⟨_, _, _, h2⟩ _
    rw [(routes_lit.mp h1).2.1, (routes_lit.mp h2).2.1]
  · intro k _ _ h; exact hd h
  · intro k v h; obtain ⟨rfl, rfl⟩ := hu h; decide +kernel
  · intro k hk
    obtain ⟨i, hi⟩ := (GMap.mem_keys_iff _).mp hk
    exact absurd hi hb

/-- **C16** refuted, first half: with an empty value among the matched updates, a duplicated message makes the block come out
before all its messages have arrived: the update of "state/b" is missing. -/
theorem C16_refuted_duplicate : ∃ (a : BlockArgs) (ms : List Msg) (received : List RMsg) (mp' : MP) (pb : PB),
    Produced Avro.codec exProducer.schema a exSubs ms ∧ Shaped exProducer.schema a exSubs ∧ Faithful a.hash ms received ∧
    exMP.run Avro.codec exEnv received = .ok mp' ∧ pb ∈ mp'.emitted ∧ pb.hash = a.hash ∧
    ExpectedValue exCfg.tracked exProducer.schema a exSubs (str "state/b") [2] ∧ pb.values.get? (str "state/b") = none := by
  have hp : Produced Avro.codec exProducer.schema emptyRouted exSubs (msgsOf emptyRouted) :=
    produced_nobatch rfl (by decide +kernel) _
  let hd : List Msg := (msgsOf emptyRouted).filter (fun m => m.key.headD 9 == 0)
  let up : List Msg := (msgsOf emptyRouted).filter (fun m => m.value == [])
  obtain ⟨mp', h1, h2⟩ := ex_ok (r := exMP.run Avro.codec exEnv (recv (hd ++ up ++ up)))
    (fun mp => match mp.emitted with | [pb] => pb.hash == emptyRouted.hash && (pb.values.get? (str "state/b")).isNone | _ => false)
    (by decide +kernel)
  revert h2
  match hem : mp'.emitted with
  | [] => intro h2; simp at h2
  | [pb] =>
    intro h2
    simp only [Bool.and_eq_true, beq_iff_eq, Option.isNone_iff_eq_none] at h2
    refine ⟨emptyRouted, _, _, mp', pb, hp, emptyRouted_shaped, ?_, h1, by rw [hem]; simp, h2.1, ?_, h2.2⟩
    · intro m hm _
      refine .inl (recv_copy ?_ hm)
      intro x hx
      simp only [hd, up, List.mem_append, List.mem_filter] at hx
      rcases hx with (hx | hx) | hx <;> exact hx.1
    · refine .inr (.inl ⟨str "state/", str "s", by decide +kernel, routes_lit.mpr ⟨by decide +kernel, rfl, by decide +kernel, rfl⟩, rfl⟩)
  | _ :: _ :: _ => intro h2; simp at h2

/-- **C16** refuted, second half: an update with an empty value carried inline in the header is lost. -/
theorem C16_refuted_inline : ∃ (a : BlockArgs) (ms : List Msg) (received : List RMsg) (mp' : MP) (pb : PB),
    Produced Avro.codec exProducer.schema a exSubs ms ∧ Shaped exProducer.schema a exSubs ∧ Faithful a.hash ms received ∧
    AllArrive ms received ∧ exMP.run Avro.codec exEnv received = .ok mp' ∧ pb ∈ mp'.emitted ∧ pb.hash = a.hash ∧
    ExpectedValue exCfg.tracked exProducer.schema a exSubs (str "head") [] ∧ pb.values.get? (str "head") = none := by
  have hp : Produced Avro.codec exProducer.schema emptyInline exSubs (msgsOf emptyInline) :=
    produced_nobatch rfl (by decide +kernel) _
  obtain ⟨mp', h1, h2⟩ := ex_ok (r := exMP.run Avro.codec exEnv (recv (msgsOf emptyInline)))
    (fun mp => match mp.emitted with | [pb] => pb.hash == emptyInline.hash && (pb.values.get? (str "head")).isNone | _ => false)
    (by decide +kernel)
  revert h2
  match hem : mp'.emitted with
  | [] => intro h2; simp at h2
  | [pb] =>
    intro h2
    simp only [Bool.and_eq_true, beq_iff_eq, Option.isNone_iff_eq_none] at h2
    refine ⟨emptyInline, _, _, mp', pb, hp, emptyInline_shaped, fun m hm _ => .inl (recv_copy (fun _ h => h) hm), recv_all _, h1,
      by rw [hem]; simp, h2.1, ?_, h2.2⟩
    exact .inl ⟨by decide +kernel, by decide +kernel, rfl⟩
  | _ :: _ :: _ => intro h2; simp at h2

/-- **C16**, a part that holds: empty values in sub-batches are transported like any other value (all conditions but those on the
block's own values are as in C01). -/
theorem C16_subbatch_partial {C : Codec} (hC : C.Lawful) {env : Env} {schema : List RegexpPair} {a : BlockArgs}
    {subs : Hash → SubArgs} {ms : List Msg} (hp : Produced C schema a subs ms) (hw : WellFormed schema a subs)
    {cfg : Config} {mp mp' : MP} {received : List RMsg} (hn : newMP cfg = .ok mp) (hk : Keeps env a.number)
    (hf : Faithful a.hash ms received) (ha : AllArrive ms received) (hr : mp.run C env received = .ok mp')
    {path k : GoStr} {id : Hash} (hb : a.batches.get? path = some id) (ht : cfg.tracked path = true)
    (he : (subs id).updates.get? k = some []) :
    ∃ pb ∈ mp'.emitted, pb.hash = a.hash ∧ pb.values.get? k = some [] := by
  obtain ⟨pb, h1, h2⟩ := C01_delivered hC hp hw hn hk hf ha hr
  exact ⟨pb, h1, h2.hash, (h2.values k []).mpr (.inr (.inr ⟨path, id, hb, ht, he⟩))⟩

/-- The hypotheses of `C11_reopens` and `C09_resume` on the example block: delivered, a Reorg message, delivered again; and
replayed completely. -/
theorem exReopen : ∃ ms mp0 mp1 mp2 e, Produced Avro.codec exProducer.schema exBlock exSubs ms ∧
    exMP.run Avro.codec exEnv (recv ms) = .ok mp0 ∧
    mp0.processMessage Avro.codec exEnv (at_ (reorgMsg Avro.codec 4 (exHash 2)) 0 (str "s:0")) = .ok (mp1, e) ∧
    mp1.run Avro.codec exEnv (recv ms) = .ok mp2 ∧
    Faithful exBlock.hash ms (recv ms ++ at_ (reorgMsg Avro.codec 4 (exHash 2)) 0 (str "s:0") :: recv ms) ∧
    ∃ es pb, mp2.emitted = mp0.emitted ++ es ∧ pb ∈ es ∧ pb.hash = exBlock.hash := by
  obtain ⟨ms, h⟩ := exBlock_produced
  have hnc : NoContent (at_ (reorgMsg Avro.codec 4 (exHash 2)) 0 (str "s:0")) :=
    ⟨by decide +kernel, 5, by decide +kernel, by decide⟩
  obtain ⟨mp2, hr⟩ := C14_total Avro.codec_lawful (env := exEnv)
    (blocks := fun s => s = ⟨exProducer.schema, exBlock, exSubs, ms⟩)
    (by rintro s rfl; exact ⟨h, exBlock_wf⟩) (by rintro s s' rfl rfl _; rfl) exMP_new
    (received := recv ms ++ at_ (reorgMsg Avro.codec 4 (exHash 2)) 0 (str "s:0") :: recv ms) (by
      intro m hm
      rcases List.mem_append.mp hm with hm | hm
      · exact .inl ⟨_, rfl, recv_copy (fun _ h => h) hm⟩
      · rcases List.mem_cons.mp hm with rfl | hm
        · exact .inr hnc
        · exact .inl ⟨_, rfl, recv_copy (fun _ h => h) hm⟩)
  have hf : Faithful exBlock.hash ms (recv ms ++ at_ (reorgMsg Avro.codec 4 (exHash 2)) 0 (str "s:0") :: recv ms) := by
    intro m hm _
    rcases List.mem_append.mp hm with hm | hm
    · exact .inl (recv_copy (fun _ h => h) hm)
    · rcases List.mem_cons.mp hm with rfl | hm
      · exact .inr hnc
      · exact .inl (recv_copy (fun _ h => h) hm)
  obtain ⟨mp0, h0, hr⟩ := run_append hr
  simp only [MP.run] at hr
  match hp : mp0.processMessage Avro.codec exEnv (at_ (reorgMsg Avro.codec 4 (exHash 2)) 0 (str "s:0")) with
  | .error f => rw [hp] at hr; simp at hr
  | .ok (mp1, e) =>
    rw [hp] at hr
    exact ⟨ms, mp0, mp1, mp2, e, h, h0, hp, hr, hf, C11_reopens Avro.codec_lawful h exBlock_wf exMP_new (exEnv_keeps _) hf h0
      (by decide +kernel) hp (recv_all ms) hr⟩

end Verif
