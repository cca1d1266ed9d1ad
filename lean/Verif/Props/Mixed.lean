import Verif.Props.Resume
import Verif.Props.Handed
import Verif.Props.WebsocketSystem
/-!
# C136: a consumer of several transports, some with messages and some with complete blocks

The consumers of a muxed consumer share one processor and one ordering layer (`transports/resolver.go:93-107`). Kafka consumers hand messages to it, websocket
consumers hand over complete blocks. C44 and C129 are about messages only, C87 and C121 about complete blocks only. Here both come, in any order: what one transport
brings late, in part or not at all may come over another. Two calls at the same time are not considered (C115 shows that the code does not allow them).
-/
namespace Verif

/-! ## Specification -/

/-- The messages among the calls. -/
def Spec.messagesIn : List Call → List RMsg
  | [] => []
  | .msg m :: cs => m :: messagesIn cs
  | .block _ :: cs => messagesIn cs

/-- What the transports hand over: messages of these blocks, and blocks with the headers of some of them. -/
structure Spec.Mixed (C : Codec) (cfg : Config) (n : Int) (old chain : List SentBlock) (calls : List Call) : Prop extends
    Spec.Around C cfg n old chain where
  onlyMsgs : ∀ m, .msg m ∈ calls → ∃ s ∈ old ++ chain, Copy s.msgs m
  onlyBlocks : ∀ pb, .block pb ∈ calls → ∃ s ∈ old ++ chain, HeadOf s pb

/-- The block came: all its messages over the transports together, or the whole of it over one of them. -/
def Spec.Arrived (calls : List Call) (s : SentBlock) : Prop := AllArrive s.msgs (Spec.messagesIn calls) ∨ ∃ pb, .block pb ∈ calls ∧ pb.hash = s.args.hash

/-- The block is what was produced, or what a transport handed over (but for the channel, which is made when there is none). -/
def Spec.AsSent (tracked : GoStr → Bool) (calls : List Call) (s : SentBlock) (pb : PB) : Prop :=
  Exact tracked s.schema s.args s.subs pb ∨ ∃ pb0, .block pb0 ∈ calls ∧ HeadOf s pb0 ∧ { pb with waitCh := pb0.waitCh } = pb0

open Spec

variable {C : Codec} {env : Env} {o : MapOrder}

/-! ## The processor -/

theorem mem_messagesIn {m : RMsg} {cs : List Call} : m ∈ messagesIn cs ↔ .msg m ∈ cs := by
  induction cs with
  | nil => simp [messagesIn]
  | cons c cs ih => cases c <;> simp [messagesIn, ih]

theorem asSent_head {tracked : GoStr → Bool} {cs : List Call} {s : SentBlock} {pb : PB} (h : AsSent tracked cs s pb) : HeadOf s pb := by
  rcases h with h | ⟨pb0, _, h, e⟩
  · exact exact_head h
  · rw [← e] at h; exact ⟨h.number, h.weight, h.hash, h.parent⟩

theorem asSent_mono {tracked : GoStr → Bool} {cs cs' : List Call} {s : SentBlock} {pb : PB} (h : AsSent tracked cs s pb) (hm : ∀ c ∈ cs, c ∈ cs') :
    AsSent tracked cs' s pb := by
  rcases h with h | ⟨pb0, h1, h2⟩
  · exact .inl h
  · exact .inr ⟨pb0, hm _ h1, h2⟩

/-- The hashes of pending batches are those of the messages. -/
theorem LiftParts.known {af : Bool} {Q : RMsg → Prop} {R : Hash → PB → Prop} {G : GMap GoStr Int → Prop} {tracked : GoStr → Bool} {frp : Bool} {K : Hash → Prop}
    (h : LiftParts C env af Q R G tracked frp) (hK : ∀ m, Q m → K (hashOf m.key)) : LiftParts C env af Q (fun x pb => K x ∧ R x pb) G tracked frp where
  res := h.res
  header mp m b hq h1 h2 h3 h4 h5 := ⟨hK m hq, h.header mp m b hq h1 h2 h3 h4 h5⟩
  subErr m pb hq hR h1 h2 h3 h4 := ⟨hR.1, h.subErr m pb hq hR.2 h1 h2 h3 h4⟩
  sub t m pb pb' n hq hR h1 h2 h3 h4 h5 := ⟨hR.1, h.sub t m pb pb' n hq hR.2 h1 h2 h3 h4 h5⟩
  apply m pb pb' r hq hR h1 h2 h3 := ⟨hR.1, h.apply m pb pb' r hq hR.2 h1 h2 h3⟩
  short := h.short
  subOk := h.subOk.imp id (fun g t m pb n hq hR => g t m pb n hq hR.2)
  applyOk := h.applyOk.imp id (fun g m pb hq hR => g m pb hq hR.2)

/-- A consistent description of every block, for the messages of the blocks `bs`. -/
theorem descriptions (hC : C.Lawful) {bs : List SentBlock} (hb : ∀ s ∈ bs, s.Correct C)
    (hd : ∀ s s', s ∈ bs → s' ∈ bs → s.args.hash = s'.args.hash → s = s') :
    ∃ F : Hash → Blk, ∀ h, (F h).WF ∧ (F h).hash = h ∧ (∀ m, (∃ s ∈ bs, Copy s.msgs m) → hashOf m.key = h → Blk.Own C (F h) m) ∧
      ∀ s ∈ bs, s.args.hash = h → ∃ b, Bridge C s.schema s.args s.subs s.msgs b ∧ F h = blkOf s.schema s.args s.subs b := by
  have hex : ∀ h, ∃ B : Blk, B.WF ∧ B.hash = h ∧ (∀ m, (∃ s ∈ bs, Copy s.msgs m) → hashOf m.key = h → Blk.Own C B m) ∧
      ∀ s ∈ bs, s.args.hash = h → ∃ b, Bridge C s.schema s.args s.subs s.msgs b ∧ B = blkOf s.schema s.args s.subs b := by
    intro h
    by_cases hs : ∃ s ∈ bs, s.args.hash = h
    · obtain ⟨s, h1, rfl⟩ := hs
      obtain ⟨b, hbr⟩ := bridge hC (hb s h1).1 (hb s h1).2
      refine ⟨_, hbr.wf, rfl, ?_, ?_⟩
      · intro m hm hh
        refine hbr.own (received := [m]) ?_ (List.mem_singleton.mpr rfl) hh
        exact faithful_of_blocks hC (blocks := (· ∈ bs)) hb hd (fun x hx => by
          rw [List.mem_singleton.mp hx]; exact .inl hm) h1
      · intro s' hs' e
        have := hd s' s hs' h1 e
        subst this
        exact ⟨b, hbr, rfl⟩
    · refine ⟨emptyBlk h, emptyBlk_wf h, rfl, ?_, ?_⟩
      · rintro m ⟨s, h1, h2⟩ hh
        exact absurd ⟨s, h1, (copy_hash hC (hb s h1) h2).symm.trans hh⟩ hs
      · intro s hs' e
        exact absurd ⟨s, hs', e⟩ hs
  exact Classical.axiomOfChoice hex

/-- The pending batches are parts of the blocks, as are the queued messages; what was emitted is as sent. -/
structure MixedInv (C : Codec) (cfg : Config) (bs : List SentBlock) (F : Hash → Blk) (cs : List Call) (mp : MP) : Prop where
  base : Base mp
  lift : LiftInv (fun m => ∃ s ∈ bs, Copy s.msgs m) (fun h pb => (∃ s ∈ bs, s.args.hash = h) ∧ Blk.Inv C (F h) cfg.tracked pb) (fun _ => True)
    cfg.tracked cfg.frp mp.emitted mp
  sent : ∀ pb ∈ mp.emitted, ∃ s ∈ bs, AsSent cfg.tracked cs s pb

theorem LiftInv.rebase {Q : RMsg → Prop} {R : Hash → PB → Prop} {G : GMap GoStr Int → Prop} {tracked : GoStr → Bool} {frp : Bool} {E0 : List PB} {mp : MP}
    (h : LiftInv Q R G tracked frp E0 mp) : LiftInv Q R G tracked frp mp.emitted mp :=
  ⟨h.tracked, h.frp, h.res, h.pbs, h.queue, [], by simp, by simp⟩

section
variable {cfg : Config} {bs : List SentBlock} {F : Hash → Blk} {cs : List Call}

/-- One call. -/
theorem mixed_call (hC : C.Lawful) (hb : ∀ s ∈ bs, s.Correct C)
    (hF : ∀ h, (F h).WF ∧ (F h).hash = h ∧ (∀ m, (∃ s ∈ bs, Copy s.msgs m) → hashOf m.key = h → Blk.Own C (F h) m) ∧
      ∀ s ∈ bs, s.args.hash = h → ∃ b, Bridge C s.schema s.args s.subs s.msgs b ∧ F h = blkOf s.schema s.args s.subs b)
    {mp : MP} (hi : MixedInv C cfg bs F cs mp) {c : Call} (hmsg : ∀ m, c = .msg m → ∃ s ∈ bs, Copy s.msgs m)
    (hblk : ∀ pb, c = .block pb → c ∈ cs ∧ ∃ s ∈ bs, HeadOf s pb) : ∃ mp', mp.call C env c = .ok mp' ∧ MixedInv C cfg bs F cs mp' := by
  cases c with
  | block pb =>
    obtain ⟨hcs, s, hs, hh⟩ := hblk pb rfl
    obtain ⟨pb', next, w, he, e⟩ := complete_eq mp pb
    refine ⟨_, rfl, hi.base.complete pb, ?_, ?_⟩
    · refine LiftInv.rebase (E0 := (mp.processCompleteBatch pb).emitted) ⟨?_, ?_, trivial, ?_, ?_, [], by simp, by simp⟩
      · rw [he]; exact hi.lift.tracked
      · rw [he]; exact hi.lift.frp
      · rw [he]
        intro x q hq
        simp only [GMap.get?_erase] at hq
        split at hq
        · simp at hq
        · exact hi.lift.pbs x q hq
      · rw [he]; exact hi.lift.queue
    · intro p hp
      obtain ⟨p', e1, e2⟩ := complete_emitted mp pb
      rw [e1] at hp
      rcases List.mem_append.mp hp with hp | hp
      · exact hi.sent p hp
      · rw [List.mem_singleton.mp hp]
        exact ⟨s, hs, .inr ⟨pb, hcs, hh, e2⟩⟩
  | msg m =>
    have hq := hmsg m rfl
    have hL := Blk.lift (C := C) (env := env) (tracked := cfg.tracked) (frp := cfg.frp) hC false (fun h => some (F h))
      (fun h B hB => by cases hB; exact ⟨(hF h).1, (hF h).2.1⟩) (.inr fun h => ⟨_, rfl⟩)
    have hL2 : LiftParts C env false (fun m => ∃ s ∈ bs, Copy s.msgs m)
        (fun h pb => (∃ s ∈ bs, s.args.hash = h) ∧ Blk.Inv C (F h) cfg.tracked pb) (fun _ => True) cfg.tracked cfg.frp := by
      have hQ : ∀ m, (∃ s ∈ bs, Copy s.msgs m) → ∀ B, some (F (hashOf m.key)) = some B → Blk.Own C B m := by
        intro m hm B hB; cases hB; exact (hF _).2.2.1 m hm rfl
      have hL1 : LiftParts C env false (fun m => ∃ s ∈ bs, Copy s.msgs m) (fun h pb => Blk.Inv C (F h) cfg.tracked pb) (fun _ => True) cfg.tracked cfg.frp := {
        res := fun _ _ _ _ => trivial
        header := fun mp m b hm h1 h2 h3 h4 h5 => hL.header mp m b (hQ m hm) h1 h2 h3 h4 h5 _ rfl
        subErr := fun m pb hm hR h1 h2 h3 h4 => hL.subErr m pb (hQ m hm) (fun B hB => by cases hB; exact hR) h1 h2 h3 h4 _ rfl
        sub := fun t m pb pb' n hm hR h1 h2 h3 h4 h5 => hL.sub t m pb pb' n (hQ m hm) (fun B hB => by cases hB; exact hR) h1 h2 h3 h4 h5 _ rfl
        apply := fun m pb pb' r hm hR h1 h2 h3 => hL.apply m pb pb' r (hQ m hm) (fun B hB => by cases hB; exact hR) h1 h2 h3 _ rfl
        short := hL.short.imp id (fun g m hm => g m (hQ m hm))
        subOk := hL.subOk.imp id (fun g t m pb n hm hR => g t m pb n (hQ m hm) (fun B hB => by cases hB; exact hR))
        applyOk := hL.applyOk.imp id (fun g m pb hm hR => g m pb (hQ m hm) (fun B hB => by cases hB; exact hR)) }
      refine hL1.known (K := fun h => ∃ s ∈ bs, s.args.hash = h) ?_
      rintro m ⟨s, hs, hc⟩
      exact ⟨s, hs, (copy_hash hC (hb s hs) hc).symm⟩
    obtain ⟨mp', e, hp, hi'⟩ := ((hL2.parts (E0 := mp.emitted)).toParts.process hq ⟨hi.base, hi.lift⟩).total
    refine ⟨mp', by simp only [MP.call, hp], hi'.1, hi'.2.rebase, ?_⟩
    obtain ⟨es, he, hes⟩ := hi'.2.emitted
    intro pb hpb
    rw [he] at hpb
    rcases List.mem_append.mp hpb with hpb | hpb
    · exact hi.sent pb hpb
    · obtain ⟨⟨⟨s, hs, e1⟩, e2⟩, e3⟩ := hes pb hpb
      obtain ⟨b, hbr, e4⟩ := (hF pb.hash).2.2.2 s hs e1
      rw [e4] at e2
      exact ⟨s, hs, .inl (hbr.exact (hb s hs).2 e2 e3)⟩

/-- Any number of calls. -/
theorem mixed_calls (hC : C.Lawful) (hb : ∀ s ∈ bs, s.Correct C)
    (hF : ∀ h, (F h).WF ∧ (F h).hash = h ∧ (∀ m, (∃ s ∈ bs, Copy s.msgs m) → hashOf m.key = h → Blk.Own C (F h) m) ∧
      ∀ s ∈ bs, s.args.hash = h → ∃ b, Bridge C s.schema s.args s.subs s.msgs b ∧ F h = blkOf s.schema s.args s.subs b)
    {l : List Call} {mp : MP} (hi : MixedInv C cfg bs F cs mp) (hmsg : ∀ m, .msg m ∈ l → ∃ s ∈ bs, Copy s.msgs m)
    (hblk : ∀ pb, .block pb ∈ l → .block pb ∈ cs ∧ ∃ s ∈ bs, HeadOf s pb) : ∃ mp', mp.calls C env l = .ok mp' ∧ MixedInv C cfg bs F cs mp' := by
  induction l generalizing mp with
  | nil => exact ⟨mp, rfl, hi⟩
  | cons c l ih =>
    obtain ⟨mp1, h1, h2⟩ := mixed_call (env := env) hC hb hF hi (c := c) (fun m e => hmsg m (by simp [e])) (fun pb e => by
      subst e; exact hblk pb (by simp))
    obtain ⟨mp2, h3, h4⟩ := ih h2 (fun m hm => hmsg m (by simp [hm])) (fun pb hm => hblk pb (by simp [hm]))
    refine ⟨mp2, ?_, h4⟩
    unfold MP.calls
    rw [List.foldlM_cons, h1]
    exact h3

theorem MixedInv.new {mp : MP} (hn : newMP cfg = .ok mp) : MixedInv C cfg bs F cs mp := by
  have he : mp.emitted = [] := by
    unfold newMP at hn
    split at hn
    · simp at hn
    · simp only [Except.ok.injEq] at hn; subst hn; rfl
  refine ⟨Base.newMP hn, ?_, by simp [he]⟩
  rw [he]
  exact LiftInv.newMP hn trivial

/-- **C136**, the processor: it works through any sequence of messages of correctly produced blocks and of blocks handed over complete; what it sends on is what was
produced or what was handed over. -/
theorem C136_processor (hC : C.Lawful) (hb : ∀ s ∈ bs, s.Correct C) (hd : ∀ s s', s ∈ bs → s' ∈ bs → s.args.hash = s'.args.hash → s = s') {mp : MP}
    (hn : newMP cfg = .ok mp) (hmsg : ∀ m, .msg m ∈ cs → ∃ s ∈ bs, Copy s.msgs m) (hblk : ∀ pb, .block pb ∈ cs → ∃ s ∈ bs, HeadOf s pb) :
    ∃ mp', mp.calls C env cs = .ok mp' ∧ ∀ pb ∈ mp'.emitted, ∃ s ∈ bs, AsSent cfg.tracked cs s pb := by
  obtain ⟨F, hF⟩ := descriptions hC hb hd
  obtain ⟨mp', h1, h2⟩ := mixed_calls (env := env) (cs := cs) hC hb hF (MixedInv.new hn) hmsg (fun pb h => ⟨h, hblk pb h⟩)
  exact ⟨mp', h1, h2.sent⟩

/-! ### Delivery -/

/-- What has been delivered of the block `B`. -/
def MixedCore (C : Codec) (B : Blk) (tracked : GoStr → Bool) (J : MsgId → Prop) (mp : MP) : Prop :=
  (∃ pb ∈ mp.emitted, pb.hash = B.hash) ∨ Blk.Pend C B tracked J True mp ∨ Blk.Wait C B J mp

theorem mixedCore_msg (hC : C.Lawful) {B : Blk} (hw : B.WF) {J : MsgId → Prop} {mp mp' : MP} {m : RMsg} {e : Option Err}
    (hk : Keeps env B.hdr.number) (hB : Base mp) (h : MixedCore C B mp.tracked J mp) (hm : hashOf m.key = B.hash → Blk.Own C B m)
    (hr : mp.processMessage C env m = .ok (mp', e)) : MixedCore C B mp.tracked (Blk.plus C J m) mp' := by
  have hg : Blk.Grown mp.tracked mp.frp mp.emitted mp' :=
    (((Blk.triv C env mp.tracked mp.frp).parts (E0 := mp.emitted)).toParts.process trivial ⟨hB, Blk.grown_self mp⟩).ok hr |>.2
  obtain ⟨es, he, _⟩ := hg.emitted
  rcases h with ⟨pb, hp, e1⟩ | h
  · exact .inl ⟨pb, by rw [he]; simp [hp], e1⟩
  · rcases Blk.core_step hC hw hk hB (Blk.grown_self mp) (.inr h) hm hr with ⟨es', pb, g1, g2, g3⟩ | h
    · exact .inl ⟨pb, by rw [g1]; simp [g2], g3⟩
    · exact .inr h

theorem mixedCore_block {B : Blk} {tracked : GoStr → Bool} {J : MsgId → Prop} {mp : MP} (h : MixedCore C B tracked J mp) (pb : PB) :
    MixedCore C B tracked J (mp.processCompleteBatch pb) := by
  obtain ⟨pb', e1, e2⟩ := complete_emitted mp pb
  by_cases hne : pb.hash = B.hash
  · exact .inl ⟨pb', by rw [e1]; simp, by rw [← hne, ← e2]⟩
  rcases h with ⟨q, hq, e⟩ | ⟨q, h1, h2, h3, h4⟩ | h
  · exact .inl ⟨q, by rw [e1]; simp [hq], e⟩
  · obtain ⟨_, next, w, he, _⟩ := complete_eq mp pb
    refine .inr (.inl ⟨q, ?_, h2, h3, h4⟩)
    rw [he]
    simp only [GMap.get?_erase, if_neg hne]
    exact h1
  · obtain ⟨_, next, w, he, _⟩ := complete_eq mp pb
    refine .inr (.inr ?_)
    rw [he]
    refine ⟨?_, ?_, h.old, h.header, h.has, h.own⟩
    · simp only [GMap.get?_erase, if_neg hne]
      exact h.pending
    · refine Bool.eq_false_iff.mpr fun hc => ?_
      have hc : (mp.completed.add pb.hash).1.contains B.hash = true := hc
      rw [LRU.contains_iff] at hc
      rcases LRU.mem_of_mem_add hc with hc | hc
      · exact hne hc.symm
      · have := h.compl
        rw [(LRU.contains_iff _ _).mpr hc] at this
        simp at this

theorem call_tracked {mp mp' : MP} {c : Call} (hB : Base mp) (hr : mp.call C env c = .ok mp') : mp'.tracked = mp.tracked ∧ Base mp' := by
  cases c with
  | block pb =>
    simp only [MP.call, Except.ok.injEq] at hr
    subst hr
    obtain ⟨_, next, w, he, _⟩ := complete_eq mp pb
    exact ⟨by rw [he], hB.complete pb⟩
  | msg m =>
    simp only [MP.call] at hr
    split at hr
    · simp at hr
    · rename_i e
      simp only [Except.ok.injEq] at hr
      subst hr
      have := (((Blk.triv C env mp.tracked mp.frp).parts (E0 := mp.emitted)).toParts.process trivial ⟨hB, Blk.grown_self mp⟩).ok e
      exact ⟨this.2.tracked, this.1⟩

theorem mixedCore_calls (hC : C.Lawful) {B : Blk} (hw : B.WF) {J : MsgId → Prop} {l : List Call} {mp mp' : MP} {tracked : GoStr → Bool}
    (hk : Keeps env B.hdr.number) (hB : Base mp) (ht : mp.tracked = tracked) (h : MixedCore C B tracked J mp)
    (hm : ∀ m, .msg m ∈ l → hashOf m.key = B.hash → Blk.Own C B m) (hr : mp.calls C env l = .ok mp') :
    MixedCore C B tracked (fun j => J j ∨ ∃ m ∈ messagesIn l, m.key = keyOf C j) mp' := by
  induction l generalizing mp J with
  | nil =>
    simp only [MP.calls, List.foldlM_nil, pure, Except.pure, Except.ok.injEq] at hr; subst hr
    have : (fun j => J j ∨ ∃ m ∈ messagesIn [], m.key = keyOf C j) = J := by funext j; simp [messagesIn]
    rw [this]; exact h
  | cons c l ih =>
    simp only [MP.calls, List.foldlM_cons] at hr
    obtain ⟨mp1, h1, h2⟩ := bind_ok.mp hr
    obtain ⟨t1, t2⟩ := call_tracked hB h1
    cases c with
    | block pb =>
      simp only [MP.call, Except.ok.injEq] at h1
      subst h1
      exact ih t2 (t1.trans ht) (mixedCore_block h pb) (fun m hm' => hm m (by simp [hm'])) h2
    | msg m =>
      subst ht
      simp only [MP.call] at h1
      split at h1
      · simp at h1
      · rename_i e
        simp only [Except.ok.injEq] at h1
        subst h1
        have hs := mixedCore_msg hC hw hk hB h (hm m (by simp)) e
        have := ih t2 t1 hs (fun m hm' => hm m (by simp [hm'])) h2
        have e : (fun j => J j ∨ ∃ x ∈ messagesIn (.msg m :: l), x.key = keyOf C j) =
            (fun j => Blk.plus C J m j ∨ ∃ x ∈ messagesIn l, x.key = keyOf C j) := by
          funext j; simp only [messagesIn, Blk.plus, List.mem_cons, exists_eq_or_imp, or_assoc]
        rw [e]; exact this

/-- **C136**, the processor: a block that has come, in messages or complete, is sent on, whatever else comes in between, unless it is evicted. -/
theorem C136_delivered (hC : C.Lawful) (hb : ∀ s ∈ bs, s.Correct C) (hd : ∀ s s', s ∈ bs → s' ∈ bs → s.args.hash = s'.args.hash → s = s') {mp mp' : MP}
    (hn : newMP cfg = .ok mp) (hmsg : ∀ m, .msg m ∈ cs → ∃ s ∈ bs, Copy s.msgs m) {s : SentBlock} (hs : s ∈ bs) (hk : Keeps env s.args.number)
    (ha : Arrived cs s) (hr : mp.calls C env cs = .ok mp') : ∃ pb ∈ mp'.emitted, pb.hash = s.args.hash := by
  obtain ⟨b, hbr⟩ := bridge hC (hb s hs).1 (hb s hs).2
  have hk' : Keeps env (blkOf s.schema s.args s.subs b).hdr.number := by simp only [blkOf]; rw [hbr.hdr.number]; exact hk
  have h0 := newMP_forgets hn s.args.hash
  have hf : Faithful s.args.hash s.msgs (messagesIn cs) :=
    faithful_of_blocks hC (blocks := (· ∈ bs)) hb hd (fun m hm => .inl (hmsg m (mem_messagesIn.mp hm))) hs
  rcases ha with ha | ⟨pb, hpb, e⟩
  · have htr : mp.tracked = cfg.tracked := (LiftInv.newMP (Q := fun _ => True) (R := fun _ _ => True) (G := fun _ => True) hn trivial).tracked
    have hstart : MixedCore C (blkOf s.schema s.args s.subs b) cfg.tracked (fun _ => False) mp :=
      .inr (Blk.calm_core (Base.newMP hn) (LiftInv.newMP hn trivial : Blk.Sound C _ cfg.tracked cfg.frp [] mp) (newMP_calm _ hn) h0.1 h0.2)
    rcases mixedCore_calls hC hbr.wf hk' (Base.newMP hn) htr hstart (fun m hm => hbr.own hf (mem_messagesIn.mpr hm)) hr with h | ⟨pb, h1, h2, h3, h4⟩ | h
    · exact h
    · have hall : ∀ j, ((blkOf s.schema s.args s.subs b).Part j ∨ j = .batch s.args.hash) → ∃ m ∈ messagesIn cs, m.key = keyOf C j := by
        intro j hj
        obtain ⟨x, hx, hxk⟩ := hbr.all j hj
        obtain ⟨m, hm, hk1, _⟩ := ha x hx
        exact ⟨m, hm, hk1.trans hxk⟩
      have := h2.complete hbr.wf (fun j hj => h3 j hj (.inr (hall j (.inl hj))))
      rw [h4 trivial] at this; simp at this
    · obtain ⟨x, hx, hxk⟩ := hbr.all (.batch s.args.hash) (.inr rfl)
      obtain ⟨m, hm, hk1, _⟩ := ha x hx
      exact absurd (.inr ⟨m, hm, hk1.trans hxk⟩) h.header
  · obtain ⟨l1, l2, rfl⟩ := List.append_of_mem hpb
    unfold MP.calls at hr
    rw [List.foldlM_append] at hr
    obtain ⟨mp1, h1, h2⟩ := bind_ok.mp hr
    rw [List.foldlM_cons] at h2
    obtain ⟨mp2, h3, h4⟩ := bind_ok.mp h2
    simp only [MP.call, Except.ok.injEq] at h3
    subst h3
    obtain ⟨pb', e1, e2⟩ := complete_emitted mp1 pb
    obtain ⟨l, hl⟩ := calls_emitted (cs := l2) h4
    exact ⟨pb', by rw [← hl, e1]; simp, by rw [← e, ← e2]⟩

end

/-! ## The whole consumer -/

section
variable {cfg : Config} {n : Int} {old chain : List SentBlock} {calls : List Call}

theorem copy_type (hC : C.Lawful) {s : SentBlock} (hs : s.Correct C) {m : RMsg} (hm : Copy s.msgs m) : m.key.headD 0 ≠ ReorgType ∧ m.key ≠ [] := by
  obtain ⟨x, hx, h1, _⟩ := hm
  obtain ⟨b, hb⟩ := bridge hC hs.1 hs.2
  obtain ⟨i, hi, hmine⟩ := hb.mine x hx
  rw [h1, hi]
  cases hmine <;> simp [keyOf, getKey, ReorgType, BatchType, BatchMsgType, BatchDeleteMsgType, SubBatchHeaderType, SubBatchMsgType]

theorem Spec.Mixed.types (h : Mixed C cfg n old chain calls) (hC : C.Lawful) : ∀ m, .msg m ∈ calls → m.key.headD 0 ≠ ReorgType := by
  intro m hm
  obtain ⟨s, hs, hc⟩ := h.onlyMsgs m hm
  exact (copy_type hC (h.correct s hs) hc).1

/-- In a run without reorg messages there are no notifications. -/
theorem mixed_inside (ht : ∀ m, .msg m ∈ calls → m.key.headD 0 ≠ ReorgType) {s0 s : Sys} (hst : Sys.start cfg calls = .ok s0)
    (hs : Sys.Steps C env o s0 s) :
    ∃ mp0 omp0 ds, newMP cfg = .ok mp0 ∧ newOMP cfg = .ok omp0 ∧ calls = s.calls ++ s.todo ∧
      mp0.calls C env s.calls = .ok s.mp ∧ s.ops = ds.map OOp.block ∧ omp0.run o (ds.map OOp.block) = .ok s.omp ∧
      s.mp.emitted = ds ++ (s.ch ++ blocksSent s.out) := by
  have hp := (Piped.start hst).steps hs
  obtain ⟨mp0, hn, hr⟩ := hp.consists.mp
  obtain ⟨omp0, ho, hor⟩ := hp.consists.omp
  have hl : notesSent mp0.log = [] := by
    unfold newMP at hn
    split at hn
    · simp at hn
    · simp only [Except.ok.injEq] at hn; subst hn; rfl
  have hnote : notesSent s.mp.log = [] := by
    refine ((notes_parts C env).toParts.calls (R := fun _ => True) ?_ (fun m hm => ht m (by rw [hp.consists.calls]; simp [hm])) (fun _ _ => trivial)
      ⟨Base.newMP hn, hl⟩ hr).2
    rintro mp pb - ⟨hB, hN⟩
    refine ⟨hB.complete pb, ?_⟩
    obtain ⟨pb', next, w, he, _⟩ := complete_eq mp pb
    rw [he]
    simp only [notesSent, List.filterMap_append] at hN ⊢
    rw [hN]; rfl
  have hops : s.ops = (blocksOf s.ops).map OOp.block := by
    refine ops_blocks ?_
    have := hp.notes
    rw [hnote] at this
    exact (List.append_eq_nil_iff.mp this.symm).1
  refine ⟨mp0, omp0, blocksOf s.ops, hn, ho, hp.consists.calls, hr, hops, ?_, hp.blocks⟩
  rw [← hops]; exact hor

/-- In a run there are no notifications, and the blocks handled are as sent. -/
theorem Spec.Mixed.inside (h : Mixed C cfg n old chain calls) (hC : C.Lawful) {s0 s : Sys} (hst : Sys.start cfg calls = .ok s0)
    (hs : Sys.Steps C env o s0 s) :
    ∃ mp0 omp0 ds, newMP cfg = .ok mp0 ∧ newOMP cfg = .ok omp0 ∧ calls = s.calls ++ s.todo ∧
      mp0.calls C env s.calls = .ok s.mp ∧ s.ops = ds.map OOp.block ∧ omp0.run o (ds.map OOp.block) = .ok s.omp ∧
      s.mp.emitted = ds ++ (s.ch ++ blocksSent s.out) :=
  mixed_inside (h.types hC) hst hs

theorem Spec.Mixed.part (h : Mixed C cfg n old chain calls) {cs : List Call} (hm : ∀ c ∈ cs, c ∈ calls) : Mixed C cfg n old chain cs :=
  ⟨h.toAround, fun m hc => h.onlyMsgs m (hm _ hc), fun pb hc => h.onlyBlocks pb (hm _ hc)⟩

/-- What the processor does with a beginning of the calls. -/
theorem Spec.Mixed.processed (h : Mixed C cfg n old chain calls) (hC : C.Lawful) {mp0 : MP} (hn : newMP cfg = .ok mp0) :
    ∃ mp', mp0.calls C env calls = .ok mp' ∧ ∀ pb ∈ mp'.emitted, ∃ s ∈ old ++ chain, AsSent cfg.tracked calls s pb :=
  C136_processor hC h.correct h.inj hn h.onlyMsgs h.onlyBlocks

theorem Spec.Mixed.emitted (h : Mixed C cfg n old chain calls) (hC : C.Lawful) {cs rest : List Call} (e : calls = cs ++ rest) {mp0 mp : MP}
    (hn : newMP cfg = .ok mp0) (hr : mp0.calls C env cs = .ok mp) : ∀ pb ∈ mp.emitted, ∃ s ∈ old ++ chain, AsSent cfg.tracked calls s pb := by
  obtain ⟨mp', h1, h2⟩ := (h.part (cs := cs) (by rw [e]; intro c hc; simp [hc])).processed (env := env) hC hn
  rw [hr] at h1
  cases h1
  intro pb hpb
  obtain ⟨s, hs, ha⟩ := h2 pb hpb
  exact ⟨s, hs, asSent_mono ha (by rw [e]; intro c hc; simp [hc])⟩

theorem Spec.Mixed.calm (h : Mixed C cfg n old chain calls) (hC : C.Lawful) {s0 s : Sys} (hst : Sys.start cfg calls = .ok s0)
    (hs : Sys.Steps C env o s0 s) : ¬ Faulty C env o s := by
  obtain ⟨mp0, omp0, ds, hn, ho, h1, h3, h4, h5, h6⟩ := h.inside hC hst hs
  rintro (⟨c, cs, f, ht, hf⟩ | ⟨pb, r, f, ht, hf⟩)
  · obtain ⟨mp', hr, _⟩ := (h.part (cs := s.calls ++ [c]) (by
      rw [h1, ht]; intro x hx
      rcases List.mem_append.mp hx with hx | hx
      · simp [hx]
      · simp [List.mem_singleton.mp hx])).processed (env := env) hC hn
    unfold MP.calls at hr h3
    rw [List.foldlM_append, h3] at hr
    have hr : ([c].foldlM (MP.call C env) s.mp) = .ok mp' := hr
    rw [List.foldlM_cons, hf] at hr
    simp [bind, Except.bind] at hr
  · have hex : ∀ x ∈ ds ++ [pb], ∃ s ∈ old ++ chain, HeadOf s x := by
      intro x hx
      obtain ⟨s', hs', ha⟩ := h.emitted hC h1 hn h3 x (by
        rw [h6, ht]
        rcases List.mem_append.mp hx with hx | hx
        · simp [hx]
        · simp [List.mem_singleton.mp hx])
      exact ⟨s', hs', asSent_head ha⟩
    obtain ⟨s', _, _, g1, _⟩ := h.toAround.ordered (o := o) ho hex
    rw [List.map_append] at g1
    unfold OMP.run at g1 h5
    rw [List.foldlM_append, h5] at g1
    have g1 : (([pb].map OOp.block).foldlM (OMP.op o) s.omp) = .ok s' := g1
    rw [List.map_cons, List.foldlM_cons] at g1
    rw [show OMP.op o s.omp (.block pb) = .error f from hf] at g1
    simp [bind, Except.bind] at g1

/-- **C136**, the whole consumer, at every moment and under every schedule: it is not about to fault; the blocks the subscriber has been told to add are, in order
and once each, the first blocks of the chain, each as it was produced or as a transport handed it over, and nothing was to be removed. -/
theorem C136_always (h : Mixed C cfg n old chain calls) (hC : C.Lawful) {s0 s : Sys} (hst : Sys.start cfg calls = .ok s0) (hs : Sys.Steps C env o s0 s) :
    ¬ Faulty C env o s ∧ (∀ x ∈ s.omp.log, (∃ a, x = .update a []) ∨ ∃ sb ∈ old ++ chain, x = .evictOlder sb.args.number) ∧
    (s.omp.log.flatMap addedBy).length ≤ chain.length ∧
    ∀ x ∈ chain.zip (s.omp.log.flatMap addedBy), AsSent cfg.tracked calls x.1 x.2 := by
  refine ⟨h.calm hC hst hs, ?_⟩
  obtain ⟨mp0, omp0, ds, hn, ho, h1, h3, h4, h5, h6⟩ := h.inside hC hst hs
  have hem := h.emitted hC h1 hn h3
  obtain ⟨s', em, rest', g1, g2, g3, g4, _⟩ := h.toAround.ordered (o := o) ho (ds := ds) (fun pb hpb => by
    obtain ⟨s', hs', ha⟩ := hem pb (by rw [h6]; simp [hpb])
    exact ⟨s', hs', asSent_head ha⟩)
  rw [h5] at g1
  have g1 := Except.ok.inj g1
  subst g1
  obtain ⟨c1, c2, e1, e2, e3⟩ := List.map_eq_append_iff.mp g2
  have hh : (s.omp.log.flatMap addedBy).map PB.hash = c1.map (·.args.hash) := by
    have : addedHashes s.omp.log = (s.omp.log.flatMap addedBy).map PB.hash := rfl
    rw [← this, g3, ← e2]
    simp [Spec.hashes, bare, Function.comp_def]
  have hlen : (s.omp.log.flatMap addedBy).length = c1.length := by simpa using congrArg List.length hh
  refine ⟨g4, by rw [hlen, e1]; simp, ?_⟩
  have hz : chain.zip (s.omp.log.flatMap addedBy) = c1.zip (s.omp.log.flatMap addedBy) := by
    rw [e1]
    conv => lhs; rw [← List.append_nil (s.omp.log.flatMap addedBy)]
    rw [List.zip_append hlen.symm]
    simp
  rw [hz]
  intro x hx
  obtain ⟨i, hi, rfl⟩ := List.mem_iff_getElem.mp hx
  simp only [List.length_zip] at hi
  rw [List.getElem_zip]
  simp only []
  have hheq : ((s.omp.log.flatMap addedBy)[i]'(by omega)).hash = (c1[i]'(by omega)).args.hash := by
    have := congrArg (fun l => l[i]?) hh
    simp only [List.getElem?_map] at this
    rw [List.getElem?_eq_getElem (by omega), List.getElem?_eq_getElem (by omega)] at this
    simpa using this
  obtain ⟨sb, hsb, he⟩ := hem _ (added_emitted hst hs _ (List.getElem_mem (l := s.omp.log.flatMap addedBy) (n := i) (by omega)))
  have : sb = c1[i]'(by omega) := h.inj _ _ hsb (by rw [e1]; simp) ((asSent_head he).hash.symm.trans hheq)
  rw [this] at he
  exact he

/-- **C136**, the end: when everything handed over has been handled (which every execution comes to) and every block of the chain came, the subscriber has been told to
add the whole chain. -/
theorem C136_end (h : Mixed C cfg n old chain calls) (hC : C.Lawful) (ha : ∀ s ∈ chain, Arrived calls s) {s0 s : Sys}
    (hst : Sys.start cfg calls = .ok s0) (hs : Sys.Steps C env o s0 s) (hd : s.Drained) (hg : Genuine env s) :
    (s.omp.log.flatMap addedBy).length = chain.length := by
  obtain ⟨mp0, omp0, ds, hn, ho, h1, h3, h4, h5, h6⟩ := h.inside hC hst hs
  have hem := h.emitted hC h1 hn h3
  rw [hd.1, List.append_nil] at h1
  rw [← h1] at h3
  rw [hd.2.1, hd.2.2.1] at h6
  have h6 : s.mp.emitted = ds := by simpa [blocksSent] using h6
  obtain ⟨s', em, rest, g1, g2, g3, g4, g5⟩ := h.toAround.ordered (o := o) ho (ds := ds) (fun pb hpb => by
    obtain ⟨s', hs', ha⟩ := hem pb (by rw [h6]; exact hpb)
    exact ⟨s', hs', asSent_head ha⟩)
  rw [h5] at g1
  have g1 := Except.ok.inj g1
  subst g1
  have hrest : rest = [] := by
    cases rest with
    | nil => rfl
    | cons b rest =>
      have : b ∈ chain.map bare := by rw [g2]; simp
      obtain ⟨sb, hsb, rfl⟩ := List.mem_map.mp this
      obtain ⟨g6, g7⟩ := g5 _ _ rfl
      obtain ⟨pb, hpb, he⟩ := C136_delivered hC h.correct h.inj hn h.onlyMsgs (s := sb) (by simp [hsb]) (fun t x hx => g7 x (hg t x hx)) (ha sb hsb) h3
      rw [h6] at hpb
      exact (g6 (List.mem_map.mpr ⟨pb, hpb, he⟩)).elim
  rw [hrest, List.append_nil] at g2
  rw [← g2] at g3
  have : addedHashes s.omp.log = (s.omp.log.flatMap addedBy).map PB.hash := rfl
  rw [this] at g3
  simpa [Spec.hashes] using congrArg List.length g3

/-- **C136**: every execution can be completed. -/
theorem C136_completes (h : Mixed C cfg n old chain calls) (hC : C.Lawful) {s0 s : Sys} (hst : Sys.start cfg calls = .ok s0)
    (hs : Sys.Steps C env o s0 s) : ∃ s', Sys.Steps C env o s s' ∧ s'.Drained := by
  obtain ⟨s', h1, h2⟩ := s.drains (C := C) (env := env) (o := o) ((Piped.start (C := C) (env := env) (o := o) hst).steps hs).room
  refine ⟨s', h1, h2.resolve_right (h.calm hC hst ?_)⟩
  clear h2
  induction h1 with
  | refl => exact hs
  | step _ h ih => exact .step ih h

/-! ### The contents -/

/-- A consumer that tracks everything sees the same block in what comes over a websocket and in what it assembles. -/
theorem exact_of_wsSeen {tracked : GoStr → Bool} (ht : ∀ k, tracked k = true) {s : SentBlock} {pb : PB} (h : WsSeen s.args s.subs pb) :
    Exact tracked s.schema s.args s.subs pb := by
  have hr : ∀ (l : List RegexpPair) (k : GoStr), Unrouted l k ∨ ∃ pre topic, Routes l k pre topic := by
    intro l k
    induction l with
    | nil => exact .inl (by intro r hr; simp at hr)
    | cons r l ih =>
      by_cases he : r.find k = []
      · rcases ih with ih | ⟨pre, topic, b, x, a, e, h1, h2⟩
        · exact .inl (by intro y hy; rcases List.mem_cons.mp hy with rfl | hy
                         · exact he
                         · exact ih y hy)
        · refine .inr ⟨pre, topic, r :: b, x, a, by rw [e]; rfl, ?_, h2⟩
          intro y hy
          rcases List.mem_cons.mp hy with rfl | hy
          · exact he
          · exact h1 y hy
      · exact .inr ⟨_, _, [], r, l, rfl, by simp, rfl, he, rfl⟩
  refine ⟨h.hash, h.number, h.parent, h.weight, fun k v => ?_, fun k => ?_⟩
  · rw [h.values]
    constructor
    · rintro (h1 | ⟨path, id, h1, h2⟩)
      · rcases hr s.schema k with g | ⟨pre, topic, g⟩
        · exact .inl ⟨h1, g, ht k⟩
        · exact .inr (.inl ⟨pre, topic, h1, g, ht pre⟩)
      · exact .inr (.inr ⟨path, id, h1, ht path, h2⟩)
    · rintro (h1 | ⟨_, _, h1, _⟩ | ⟨path, id, h1, _, h2⟩)
      · exact .inl h1.1
      · exact .inl h1
      · exact .inr ⟨path, id, h1, h2⟩
  · rw [h.deletes]
    constructor
    · rintro (h1 | ⟨path, id, h1, h2⟩)
      · rcases hr s.schema k with g | ⟨pre, topic, g⟩
        · exact .inl ⟨h1, g, ht k⟩
        · exact .inr (.inl ⟨pre, topic, h1, g, ht pre⟩)
      · exact .inr (.inr ⟨path, id, h1, ht path, h2⟩)
    · rintro (h1 | ⟨_, _, h1, _⟩ | ⟨path, id, h1, _, h2⟩)
      · exact .inl h1.1
      · exact .inl h1
      · exact .inr ⟨path, id, h1, h2⟩

/-- **C136** (partial: for a consumer that tracks everything; `C136_filter_refuted` shows why): the subscriber gets every block exactly as produced, whichever transport
brought it. -/
theorem C136_exact_partial (h : Mixed C cfg n old chain calls) (hC : C.Lawful) (ht : ∀ k, cfg.tracked k = true)
    (hw : ∀ pb, .block pb ∈ calls → ∃ s ∈ old ++ chain, WsSeen s.args s.subs pb) {s0 s : Sys} (hst : Sys.start cfg calls = .ok s0)
    (hs : Sys.Steps C env o s0 s) : ∀ x ∈ chain.zip (s.omp.log.flatMap addedBy), Exact cfg.tracked x.1.schema x.1.args x.1.subs x.2 := by
  intro x hx
  rcases (C136_always h hC hst hs).2.2.2 x hx with he | ⟨pb0, h1, h2, e⟩
  · exact he
  · obtain ⟨sb, hsb, hws⟩ := hw pb0 h1
    have hx1 : x.1 ∈ old ++ chain := List.mem_append_right _ (List.of_mem_zip hx).1
    have : sb = x.1 := h.inj _ _ hsb hx1 (hws.hash.symm.trans h2.hash)
    subst this
    rw [← e] at hws
    exact exact_of_wsSeen ht ⟨hws.number, hws.weight, hws.hash, hws.parent, hws.values, hws.deletes⟩

end

/-! ## Examples -/

/-- A block as a websocket hands it over: with the values of all its parts, and without a channel. -/
def exHanded (a : BlockArgs) : PB := { bare ⟨[], a, exSubs, []⟩ with
  values := a.updates.insert (str "state/sub/y") [8], deletes := a.deletes.insert (str "state/sub/z") () }

theorem exHanded_seen : WsSeen exBlock exSubs (exHanded exBlock) ∧ WsSeen exNext exSubs (exHanded exNext) ∧ WsSeen exThird exSubs (exHanded exThird) := by
  have hb : ∀ {path : GoStr} {id : Hash}, exBlock.batches.get? path = some id ↔ path = str "state/sub" ∧ id = exHash 9 := by
    intro path id
    simp only [exBlock, GMap.get?_insert, GMap.get?_empty]
    split
    · rename_i e
      simp [← e, eq_comm]
    · rename_i e
      constructor
      · intro h; cases h
      · rintro ⟨h, _⟩; exact absurd h.symm e
  have hv : ∀ k v, (exHanded exBlock).values.get? k = some v ↔ WsValue exBlock exSubs k v := by
    intro k v
    have hn : exBlock.updates.get? (str "state/sub/y") = none := by decide +kernel
    simp only [exHanded, WsValue, GMap.get?_insert]
    split
    · rename_i e
      subst e
      constructor
      · intro h; cases h
        exact .inr ⟨_, _, hb.mpr ⟨rfl, rfl⟩, by simp [exSubs]⟩
      · rintro (h | ⟨_, _, _, h⟩)
        · rw [hn] at h; cases h
        · simpa [exSubs, GMap.get?_insert] using h
    · rename_i e
      constructor
      · exact .inl
      · rintro (h | ⟨_, _, _, h⟩)
        · exact h
        · simp [exSubs, GMap.get?_insert, e] at h
  have hd : ∀ k, (exHanded exBlock).deletes.contains k = true ↔ WsDelete exBlock exSubs k := by
    intro k
    simp only [exHanded, WsDelete, GMap.contains_insert, Bool.or_eq_true, decide_eq_true_eq]
    rw [GMap.mem_keys_iff]
    constructor
    · rintro (h | h)
      · exact .inr ⟨_, _, hb.mpr ⟨rfl, rfl⟩, by simp [exSubs, h]⟩
      · exact .inl (by simpa [GMap.contains, Option.isSome_iff_exists] using h)
    · rintro (h | ⟨_, _, _, h⟩)
      · exact .inr (by simpa [GMap.contains, Option.isSome_iff_exists] using h)
      · exact .inl (by simpa [exSubs, eq_comm] using h)
  exact ⟨⟨rfl, rfl, rfl, rfl, hv, hd⟩, ⟨rfl, rfl, rfl, rfl, hv, hd⟩, ⟨rfl, rfl, rfl, rfl, hv, hd⟩⟩

theorem msgs_messagesIn (l : List RMsg) (cs : List Call) : messagesIn (l.map Call.msg ++ cs) = l ++ messagesIn cs := by
  induction l with
  | nil => rfl
  | cons m l ih => simp only [List.map_cons, List.cons_append, messagesIn, ih]

/-- The stored block comes over both transports; of the two blocks on top of it one comes complete over the websocket and without one message over Kafka, the other
only over Kafka, before the first one. -/
theorem exMixed : ∃ old chain calls, old.length = 1 ∧ chain.length = 2 ∧ Mixed Avro.codec exStored 5 old chain calls ∧ (∀ s ∈ chain, Arrived calls s) ∧
    (∃ s ∈ chain, ¬ AllArrive s.msgs (messagesIn calls)) ∧ (∀ pb, .block pb ∈ calls → ∃ s ∈ old ++ chain, WsSeen s.args s.subs pb) ∧
    ∃ s0 s, Sys.start exStored calls = .ok s0 ∧ Sys.Steps Avro.codec exEnv .plain s0 s ∧ s.Drained ∧ Genuine exEnv s := by
  obtain ⟨m1, h1⟩ := exBlock_produced
  obtain ⟨p', tm, h⟩ := exNext_ok
  obtain ⟨m2, h2⟩ := produced_exists h exSubs
  obtain ⟨p', tm, h⟩ := exThird_ok
  obtain ⟨m3, h3⟩ := produced_exists h exSubs
  have hA := exAroundOf h1 h2 h3
  obtain ⟨b2, hb2⟩ := bridge Avro.codec_lawful h2 exNext_wf
  obtain ⟨x, hx, hxk⟩ := hb2.all (.batch exNext.hash) (.inr rfl)
  let part := (recv m2).filter (fun m => decide (m.key ≠ x.key))
  let calls := (recv m3 ++ recv m1 ++ part).map Call.msg ++ [.block (exHanded exBlock), .block (exHanded exNext), .block (exHanded exNext)]
  have hin : messagesIn calls = recv m3 ++ recv m1 ++ part := by
    show messagesIn (_ ++ _) = _
    rw [msgs_messagesIn]; simp [messagesIn]
  have hbl : ∀ pb, .block pb ∈ calls → pb = exHanded exBlock ∨ pb = exHanded exNext := by
    intro pb hm
    rcases List.mem_append.mp hm with hm | hm
    · obtain ⟨_, _, e⟩ := List.mem_map.mp hm; cases e
    · simpa using hm
  have hM : Mixed Avro.codec exStored 5 [⟨exProducer.schema, exBlock, exSubs, m1⟩] [⟨exProducer.schema, exNext, exSubs, m2⟩,
      ⟨exProducer.schema, exThird, exSubs, m3⟩] calls := by
    refine ⟨hA, ?_, ?_⟩
    · intro m hm
      have hm := mem_messagesIn.mpr hm
      rw [hin] at hm
      rcases List.mem_append.mp hm with hm | hm
      · rcases List.mem_append.mp hm with hm | hm
        · exact ⟨_, List.mem_cons_of_mem _ (List.mem_cons_of_mem _ (List.mem_cons_self ..)), recv_copy (ms := m3) (fun _ h => h) hm⟩
        · exact ⟨_, List.mem_cons_self .., recv_copy (ms := m1) (fun _ h => h) hm⟩
      · exact ⟨_, List.mem_cons_of_mem _ (List.mem_cons_self ..), recv_copy (ms := m2) (fun _ h => h) (List.mem_filter.mp hm).1⟩
    · intro pb hm
      rcases hbl pb hm with rfl | rfl
      · exact ⟨_, List.mem_cons_self .., rfl, rfl, rfl, rfl⟩
      · exact ⟨_, List.mem_cons_of_mem _ (List.mem_cons_self ..), rfl, rfl, rfl, rfl⟩
  refine ⟨_, _, calls, rfl, rfl, hM, ?_, ⟨_, List.mem_cons_self .., ?_⟩, ?_, ?_⟩
  · intro s hs
    simp only [List.mem_cons, List.not_mem_nil, or_false] at hs
    rcases hs with rfl | rfl
    · exact .inr ⟨exHanded exNext, by simp [calls], rfl⟩
    · refine .inl fun y hy => ?_
      obtain ⟨m, hm, e⟩ := recv_all m3 y hy
      exact ⟨m, by rw [hin]; simp [hm], e⟩
  · intro ha
    obtain ⟨m, hm, hk, _⟩ := ha x hx
    have hbh : ∀ {a : BlockArgs} {ms : List Msg}, Produced Avro.codec exProducer.schema a exSubs ms → WellFormed exProducer.schema a exSubs → m ∈ recv ms →
        hashOf m.key = a.hash := fun {a} {ms} hp hw hm =>
      copy_hash Avro.codec_lawful (s := ⟨exProducer.schema, a, exSubs, ms⟩) ⟨hp, hw⟩ (recv_copy (fun _ h => h) hm)
    have hh : hashOf m.key = exHash 3 := by
      rw [hk, hxk]; unfold hashOf; rw [keyOf_hash]; rfl
    rw [hin] at hm
    rcases List.mem_append.mp hm with hm | hm
    · rcases List.mem_append.mp hm with hm | hm
      · have := hbh h3 exThird_wf hm
        rw [hh] at this
        exact absurd this (show exHash 3 ≠ exHash 4 by decide)
      · have := hbh h1 exBlock_wf hm
        rw [hh] at this
        exact absurd this (show exHash 3 ≠ exHash 1 by decide)
    · have := (List.mem_filter.mp hm).2
      simp [hk] at this
  · intro pb hm
    rcases hbl pb hm with rfl | rfl
    · exact ⟨_, List.mem_cons_self .., exHanded_seen.1⟩
    · exact ⟨_, List.mem_cons_of_mem _ (List.mem_cons_self ..), exHanded_seen.2.1⟩
  · have hst : ∃ s0, Sys.start exStored calls = .ok s0 := ⟨_, rfl⟩
    obtain ⟨s0, hst⟩ := hst
    obtain ⟨s, hs, hd⟩ := C136_completes (env := exEnv) (o := .plain) hM Avro.codec_lawful hst .refl
    exact ⟨s0, s, hst, hs, hd, by intro t n hn; simp [exEnv] at hn⟩

/-- The whole chain is added, exactly as produced. -/
example : ∃ (chain : List SentBlock) (calls : List Call) (s0 s : Sys), Sys.start exStored calls = .ok s0 ∧ Sys.Steps Avro.codec exEnv .plain s0 s ∧
    (s.omp.log.flatMap addedBy).length = 2 ∧ ∀ x ∈ chain.zip (s.omp.log.flatMap addedBy), Exact exStored.tracked x.1.schema x.1.args x.1.subs x.2 := by
  obtain ⟨old, chain, calls, _, hl, hM, ha, _, hw, s0, s, hst, hs, hd, hg⟩ := exMixed
  exact ⟨chain, calls, s0, s, hst, hs, (C136_end hM Avro.codec_lawful ha hst hs hd hg).trans hl, C136_exact_partial hM Avro.codec_lawful (fun _ => rfl) hw hst hs⟩

/-- The block the subscriber gets is what was handed over. -/
example : AsSent exStored.tracked [.block (exHanded exNext)] ⟨exProducer.schema, exNext, exSubs, []⟩ { exHanded exNext with waitCh := some 7 } :=
  .inr ⟨exHanded exNext, by simp, ⟨rfl, rfl, rfl, rfl⟩, rfl⟩


/-- `exStored`, for a consumer that tracks only paths that begin with `head`. -/
def exNarrow : Config := { exStored with tracked := fun k => (str "head").isPrefixOf k }

/-- **C136 fails** for a consumer that tracks some prefixes only: the same block over a websocket has values of other prefixes as well (the list of the prefixes made in
`transports/resolver.go:62-66` is not used). -/
theorem C136_filter_refuted : ¬ ∀ (cfg : Config) (n : Int) (old chain : List SentBlock) (calls : List Call) (env : Env) (o : MapOrder) (s0 s : Sys),
    Mixed Avro.codec cfg n old chain calls → (∀ pb, .block pb ∈ calls → ∃ s ∈ old ++ chain, WsSeen s.args s.subs pb) → Sys.start cfg calls = .ok s0 →
    Sys.Steps Avro.codec env o s0 s → ∀ x ∈ chain.zip (s.omp.log.flatMap addedBy), Exact cfg.tracked x.1.schema x.1.args x.1.subs x.2 := by
  intro hall
  obtain ⟨m1, h1⟩ := exBlock_produced
  obtain ⟨p', tm, h⟩ := exNext_ok
  obtain ⟨m2, h2⟩ := produced_exists h exSubs
  obtain ⟨p', tm, h⟩ := exThird_ok
  obtain ⟨m3, h3⟩ := produced_exists h exSubs
  have hA := exAroundOf h1 h2 h3
  have hA : Around Avro.codec exNarrow 5 [⟨exProducer.schema, exBlock, exSubs, m1⟩] [⟨exProducer.schema, exNext, exSubs, m2⟩,
      ⟨exProducer.schema, exThird, exSubs, m3⟩] := ⟨hA.correct, hA.links, hA.hashes, hA.nonzero, hA.stored, hA.older, hA.grows, hA.whitelist⟩
  have hM : Mixed Avro.codec exNarrow 5 [⟨exProducer.schema, exBlock, exSubs, m1⟩] [⟨exProducer.schema, exNext, exSubs, m2⟩,
      ⟨exProducer.schema, exThird, exSubs, m3⟩] ([exHanded exNext, exHanded exThird].map Call.block) := by
    refine ⟨hA, by simp, ?_⟩
    intro pb hm
    simp only [List.map_cons, List.map_nil, List.mem_cons, List.not_mem_nil, or_false, Call.block.injEq] at hm
    rcases hm with rfl | rfl
    · exact ⟨_, List.mem_cons_of_mem _ (List.mem_cons_self ..), rfl, rfl, rfl, rfl⟩
    · exact ⟨_, List.mem_cons_of_mem _ (List.mem_cons_of_mem _ (List.mem_cons_self ..)), rfl, rfl, rfl, rfl⟩
  have hw : ∀ pb, .block pb ∈ [exHanded exNext, exHanded exThird].map Call.block → ∃ s ∈ ([⟨exProducer.schema, exBlock, exSubs, m1⟩] : List SentBlock) ++
      [⟨exProducer.schema, exNext, exSubs, m2⟩, ⟨exProducer.schema, exThird, exSubs, m3⟩], WsSeen s.args s.subs pb := by
    intro pb hm
    simp only [List.map_cons, List.map_nil, List.mem_cons, List.not_mem_nil, or_false, Call.block.injEq] at hm
    rcases hm with rfl | rfl
    · exact ⟨_, List.mem_cons_of_mem _ (List.mem_cons_self ..), exHanded_seen.2.1⟩
    · exact ⟨_, List.mem_cons_of_mem _ (List.mem_cons_of_mem _ (List.mem_cons_self ..)), exHanded_seen.2.2⟩
  have hst : ∃ s0, Sys.start exNarrow ([exHanded exNext, exHanded exThird].map Call.block) = .ok s0 := ⟨_, rfl⟩
  obtain ⟨s0, hst⟩ := hst
  obtain ⟨s, hs, hd⟩ := C136_completes (env := exEnv) (o := .plain) hM Avro.codec_lawful hst .refl
  have hx := hall _ _ _ _ _ _ _ _ _ hM hw hst hs
  have hlen : (s.omp.log.flatMap addedBy).length = 2 := C136_end hM Avro.codec_lawful (by
    intro s hs
    simp only [List.mem_cons, List.not_mem_nil, or_false] at hs
    rcases hs with rfl | rfl
    · exact .inr ⟨exHanded exNext, by simp, rfl⟩
    · exact .inr ⟨exHanded exThird, by simp, rfl⟩) hst hs hd (by intro t n hn; simp [exEnv] at hn)
  obtain ⟨_, ds, done, rest, _, e1, _, _, _, _, e7⟩ := blocks_inside hst hs
  have hvals : ∀ b ∈ s.mp.emitted, b.values.get? (str "state/sub/y") = some [8] := by
    intro b hb
    have : b.bald ∈ done.map PB.bald := by rw [← e7]; exact List.mem_map.mpr ⟨b, hb, rfl⟩
    obtain ⟨d, hd1, hd2⟩ := List.mem_map.mp this
    have hd3 : d ∈ [exHanded exNext, exHanded exThird] := by rw [e1]; simp [hd1]
    have hv : b.values = d.values := by
      have := congrArg PB.values hd2
      exact this.symm
    rw [hv]
    simp only [List.mem_cons, List.not_mem_nil, or_false] at hd3
    rcases hd3 with rfl | rfl <;> simp [exHanded]
  have hem := added_emitted hst hs
  cases hl : s.omp.log.flatMap addedBy with
  | nil => rw [hl] at hlen; simp at hlen
  | cons b l =>
    rw [hl] at hx hem
    have hE := hx (⟨exProducer.schema, exNext, exSubs, m2⟩, b) (by simp)
    have h1 := (hE.values _ _).mp (hvals b (hem b (by simp)))
    have hn : exNext.updates.get? (str "state/sub/y") = none := by decide +kernel
    rcases h1 with ⟨h1, _⟩ | ⟨_, _, h1, _⟩ | ⟨path, id, h1, h2, _⟩
    · rw [hn] at h1; cases h1
    · rw [hn] at h1; cases h1
    · have : path = str "state/sub" := by
        simp only [exNext, exBlock, GMap.get?_insert, GMap.get?_empty] at h1
        split at h1
        · rename_i e; exact e.symm
        · cases h1
      subst this
      exact absurd h2 (by decide +kernel)

end Verif
