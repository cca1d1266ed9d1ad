import Verif.Props.MixedForks
import Verif.Props.ForkLives
/-!
# C154: a consumer of several transports that is stopped and started again, with forks

C148 is about messages, C150 about complete blocks; here both come.
-/
namespace Verif

/-! ## Specification -/

/-- What the transports hand over to a consumer started from the block `stored`: messages of the blocks of a tree that contains it, and blocks with the headers of some
of them. There may be messages and blocks beside the tree; these are incomplete, or not connected to it. -/
structure Spec.MixedBelow (C : Codec) (cfg : Config) (root stored : SentBlock) (tree others : List SentBlock) (calls : List Call) : Prop
    extends Spec.HeadersBelow cfg root stored tree others where
  correct : ∀ s ∈ tree ++ others, s.Correct C
  onlyMsgs : ∀ m, .msg m ∈ calls → ∃ s ∈ tree ++ others, Copy s.msgs m
  onlyBlocks : ∀ pb, .block pb ∈ calls → ∃ s ∈ tree ++ others, HeadOf s pb
  beside : ∀ s ∈ others, (Spec.Incomplete cfg.tracked s (Spec.messagesIn calls) ∧ ∀ pb, .block pb ∈ calls → pb.hash ≠ s.args.hash) ∨
    s.args.parentHash ∉ tree.map (·.args.hash) ∧ root.args.parentHash ≠ s.args.hash

/-- A block that is not lighter than the stored one does not begin before that one has come. -/
def Spec.StoredComesFirst (stored : SentBlock) (tree : List SentBlock) (calls : List Call) : Prop :=
  ∀ l1 c l2, calls = l1 ++ c :: l2 → ∀ s ∈ tree, Spec.Begins s.args.hash c → s = stored ∨ s.args.weight < stored.args.weight ∨ Spec.Arrived l1 stored

/-- The block is what was produced, or one of the blocks `W` that transports handed over. -/
def Spec.AsGiven (tracked : GoStr → Bool) (W : PB → Prop) (s : SentBlock) (pb : PB) : Prop :=
  Exact tracked s.schema s.args s.subs pb ∨ ∃ pb0, W pb0 ∧ HeadOf s pb0 ∧ { pb with waitCh := pb0.waitCh } = pb0

/-- What one life of a consumer, started from the stored block `st`, may be handed; `W` are the whole blocks that come in any life. -/
structure Spec.MixedLifeGiven (C : Codec) (cfg : Config) (W : PB → Prop) (all : List SentBlock) (st root : SentBlock) (tree others : List SentBlock) (calls : List Call) :
    Prop where
  among : ∀ x ∈ tree ++ others, x ∈ all
  whole : ∀ pb, .block pb ∈ calls → W pb
  blocks : MixedBelow C (Spec.startOn cfg st) root st tree others calls
  window : ((tree ++ others).length : Int) ≤ 2 * cfg.reorgThreshold
  follow : BlocksFollow root tree calls
  storedFirst : StoredComesFirst st tree calls

/-- Over several lives of a consumer, the first one started from the block `first`, its application has applied the outputs `log` and stored its head `st` last, as
in `Spec.ForkLives`; in each life messages and whole blocks come. -/
inductive Spec.MixedLives (C : Codec) (cfg : Config) (W : PB → Prop) (all : List SentBlock) (first : SentBlock) : List OOut → SentBlock → Prop
  | first : Spec.MixedLives C cfg W all first [] first
  | life {log : List OOut} {st root st' : SentBlock} {tree others : List SentBlock} {calls : List Call} {env : Env} {o : MapOrder} {s0 s : Sys} :
      Spec.MixedLives C cfg W all first log st → Spec.MixedLifeGiven C cfg W all st root tree others calls →
      Sys.start (Spec.startOn cfg st) calls = .ok s0 → Spec.CausalSteps C env o s0 s →
      st' ∈ all → st'.args.hash = Spec.headAfter st.args.hash s.omp.log →
      Spec.MixedLives C cfg W all first (log ++ s.omp.log) st'

open Spec

variable {C : Codec} {env : Env} {o : MapOrder}

/-! ### The processor -/

/-- Blocks sent on came whole, or as the messages say. -/
theorem lift_calls {Q : RMsg → Prop} {R : Hash → PB → Prop} {G : GMap GoStr Int → Prop} {tracked : GoStr → Bool} {frp : Bool} (hL : LiftParts C env true Q R G tracked frp)
    {cs : List Call} {mp mp' : MP} (hQ : ∀ m, .msg m ∈ cs → Q m) (hB : Base mp) (hi : LiftInv Q R G tracked frp [] mp) (hr : mp.calls C env cs = .ok mp') :
    Base mp' ∧ LiftInv Q R G tracked frp mp'.emitted mp' ∧
      ∀ pb ∈ mp'.emitted, (∃ pb0, .block pb0 ∈ cs ∧ pb0.hash = pb.hash) ∨ (R pb.hash pb ∧ pb.ready = true) := by
  induction cs using snoc_induction generalizing mp' with
  | nil =>
    cases hr
    obtain ⟨es, h1, h2⟩ := hi.emitted
    rw [List.nil_append] at h1
    exact ⟨hB, hi.rebase, fun pb hpb => .inr (h2 pb (by rw [← h1]; exact hpb))⟩
  | snoc l c ih =>
    obtain ⟨mp1, h1, h2⟩ := calls_append hr
    obtain ⟨g1, g2, g3⟩ := ih (fun m hm => hQ m (by simp [hm])) h1
    have h2 := calls_one h2
    have old : ∀ pb ∈ mp1.emitted, (∃ pb0, .block pb0 ∈ l ++ [c] ∧ pb0.hash = pb.hash) ∨ (R pb.hash pb ∧ pb.ready = true) := fun pb hpb =>
      (g3 pb hpb).imp (fun ⟨pb0, k1, k2⟩ => ⟨pb0, by simp [k1], k2⟩) id
    cases c with
    | block pb =>
      simp only [MP.call, Except.ok.injEq] at h2
      subst h2
      obtain ⟨pb', next, w, he, e⟩ := complete_eq mp1 pb
      refine ⟨g1.complete pb, ?_, ?_⟩
      · refine LiftInv.rebase (E0 := (mp1.processCompleteBatch pb).emitted) ⟨?_, ?_, ?_, ?_, ?_, [], by simp, by simp⟩
        · rw [he]; exact g2.tracked
        · rw [he]; exact g2.frp
        · rw [he]; exact g2.res
        · rw [he]
          intro x q hq
          simp only [GMap.get?_erase] at hq
          split at hq
          · simp at hq
          · exact g2.pbs x q hq
        · rw [he]; exact g2.queue
      · intro p hp
        obtain ⟨p', e1, e2⟩ := complete_emitted mp1 pb
        rw [e1] at hp
        rcases List.mem_append.mp hp with hp | hp
        · exact old p hp
        · rw [List.mem_singleton.mp hp]
          exact .inl ⟨pb, by simp, by rw [← e2]⟩
    | msg m =>
      simp only [MP.call] at h2
      split at h2
      · simp at h2
      · rename_i e
        simp only [Except.ok.injEq] at h2
        subst h2
        have h := ((hL.parts (E0 := mp1.emitted)).toParts.process (hQ m (by simp)) ⟨g1, g2⟩).ok e
        obtain ⟨es, k1, k2⟩ := h.2.emitted
        refine ⟨h.1, h.2.rebase, ?_⟩
        intro p hp
        rw [k1] at hp
        rcases List.mem_append.mp hp with hp | hp
        · exact old p hp
        · exact .inr (k2 p hp)

theorem copy_len (hC : C.Lawful) {s : SentBlock} (hs : s.Correct C) {m : RMsg} (hm : Copy s.msgs m) : 33 ≤ m.key.length := by
  obtain ⟨x, hx, h1, _⟩ := hm
  obtain ⟨b, hb⟩ := bridge hC hs.1 hs.2
  obtain ⟨i, hi, hmine⟩ := hb.mine x hx
  rw [h1, hi]
  have := keyOf_length C i
  omega

/-- A block that was sent on and did not come whole was complete. -/
theorem sent_there (hC : C.Lawful) {bs : List SentBlock} (hb : ∀ s ∈ bs, s.Correct C) (hd : ∀ s s', s ∈ bs → s' ∈ bs → s.args.hash = s'.args.hash → s = s')
    {cfg : Config} {mp mp' : MP} {cs : List Call} (hn : newMP cfg = .ok mp) (hmsg : ∀ m, .msg m ∈ cs → ∃ s ∈ bs, Copy s.msgs m) {s : SentBlock} (hs : s ∈ bs)
    (hno : ∀ pb, .block pb ∈ cs → pb.hash ≠ s.args.hash) (hr : mp.calls C env cs = .ok mp') (he : ∃ pb ∈ mp'.emitted, pb.hash = s.args.hash) :
    AllThere cfg.tracked s.schema s.args s.msgs (messagesIn cs) := by
  obtain ⟨b, hbr⟩ := bridge hC (hb s hs).1 (hb s hs).2
  obtain ⟨pb, hpb, hh⟩ := he
  have hf : Faithful s.args.hash s.msgs (messagesIn cs) :=
    faithful_of_blocks hC hb hd (fun m hm => .inl (hmsg m (mem_messagesIn.mp hm))) hs
  have hQ : ∀ m, .msg m ∈ cs → m ∈ messagesIn cs := fun m hm => mem_messagesIn.mpr hm
  have hsound := (lift_calls (Blk.lift (env := env) (tracked := cfg.tracked) (frp := cfg.frp) hC true (Blk.only (blkOf s.schema s.args s.subs b))
    (Blk.only_wf hbr.wf) (.inl rfl)) (fun m hm => Blk.own_only (fun e => hbr.own hf (hQ m hm) e)) (Base.newMP hn) (LiftInv.newMP hn trivial) hr).2.2 pb hpb
  have hprov := (lift_calls (prov_parts C env (· ∈ messagesIn cs) (fun m hm => by
    obtain ⟨s, hs, hc⟩ := hmsg m (mem_messagesIn.mp hm)
    exact copy_len hC (hb s hs) hc) cfg.tracked cfg.frp) hQ (Base.newMP hn) (LiftInv.newMP hn (by
      unfold newMP at hn
      split at hn
      · cases hn
      · cases hn; intro s o hs; simp at hs)) hr).2.2 pb hpb
  have none : ¬ ∃ pb0, .block pb0 ∈ cs ∧ pb0.hash = pb.hash := fun ⟨pb0, k1, k2⟩ => hno pb0 k1 (k2.trans hh)
  obtain ⟨h1, h2⟩ := hsound.resolve_left none
  obtain ⟨h3, _⟩ := hprov.resolve_left none
  have hinv := h1 _ (by rw [hh]; exact Blk.only_self _)
  rw [hh] at h3
  intro x hx hm
  obtain ⟨i, e1, e2⟩ := hbr.part hx
  rw [e1] at hm
  obtain ⟨m, hm1, hm2, _⟩ := recorded_needed hC hbr hf hinv h2 h3 i (e2.imp (fun h => ⟨h, (matters_iff hbr.hdr e2).mp hm⟩) id)
  exact ⟨m, hm1, hm2.trans e1.symm⟩

/-- If blocks begin only after others have come, and no eviction request is acted on before the last call, then they are sent on after the others. -/
theorem sent_after (hC : C.Lawful) {bs : List SentBlock} (hb : ∀ s ∈ bs, s.Correct C) (hd : ∀ s s', s ∈ bs → s' ∈ bs → s.args.hash = s'.args.hash → s = s')
    {cfg : Config} {calls : List Call} (hmsg : ∀ m, .msg m ∈ calls → ∃ s ∈ bs, Copy s.msgs m) (hblk : ∀ pb, .block pb ∈ calls → ∃ s ∈ bs, HeadOf s pb)
    {free : SentBlock → Prop} {need : SentBlock → SentBlock → Prop}
    (hf : ∀ l1 c l2, calls = l1 ++ c :: l2 → ∀ s ∈ bs, Begins s.args.hash c → free s ∨ ∃ p ∈ bs, need s p ∧ Arrived l1 p) {mp0 : MP}
    (hn : newMP cfg = .ok mp0) {cs rest : List Call} (hcs : calls = cs ++ rest) {mp : MP} (hr : mp0.calls C env cs = .ok mp)
    (hq : ∀ l1 c l2 mp1, cs = l1 ++ c :: l2 → mp0.calls C env l1 = .ok mp1 → ∀ t, t < mp1.tick → env.evict t = []) :
    ∀ l1 b l2, mp.emitted = l1 ++ b :: l2 → ∃ s ∈ bs, AsSent cfg.tracked calls s b ∧
      (free s ∨ ∃ p ∈ bs, need s p ∧ ∃ a ∈ l1, a.hash = p.args.hash) := by
  induction cs using snoc_induction generalizing rest mp with
  | nil =>
    cases hr
    have h0 : mp0.emitted = [] := by
      unfold newMP at hn
      split at hn
      · cases hn
      · cases hn; rfl
    intro l1 b l2 e
    rw [h0] at e
    simp at e
  | snoc l c ih =>
    obtain ⟨mp1, hr1, hr2⟩ := calls_append hr
    obtain ⟨es, hes⟩ := calls_emitted (cs := [c]) hr2
    have ih := ih (rest := c :: rest) (by rw [hcs]; simp) hr1 (fun l1 x l2 mp1 e => hq l1 x (l2 ++ [c]) mp1 (by rw [e]; simp))
    have hin : ∀ x ∈ l ++ [c], x ∈ calls := by rw [hcs]; intro x hx; exact List.mem_append_left _ hx
    have hparent : ∀ b ∈ es, ∃ s ∈ bs, AsSent cfg.tracked calls s b ∧
        (free s ∨ ∃ p ∈ bs, need s p ∧ ∃ a ∈ mp1.emitted, a.hash = p.args.hash) := by
      intro b hbm
      have hbm : b ∈ mp.emitted := by rw [← hes]; simp [hbm]
      obtain ⟨hdr, hmem, hbeg⟩ := (began_calls hn (fun m hm => by
        obtain ⟨s, hs, hc⟩ := hmsg m (hin _ hm)
        exact (copy_type hC (hb s hs) hc).2) hr).sent b hbm
      obtain ⟨mp', g1, g2⟩ := C136_processor (env := env) hC hb hd hn (fun m hm => hmsg m (hin _ hm)) (fun pb hm => hblk pb (hin _ hm))
      rw [hr] at g1
      cases g1
      obtain ⟨s, hs, ha⟩ := g2 b hbm
      have he := asSent_head ha
      refine ⟨s, hs, asSent_mono ha hin, ?_⟩
      obtain ⟨a, d, e⟩ := List.append_of_mem hmem
      rcases hf a hdr (d ++ rest) (by rw [hcs, e]; simp) s hs (he.hash ▸ hbeg) with hroot | ⟨p, hp, e1, hall⟩
      · exact .inl hroot
      · right
        have hsub : ∀ x ∈ a, x ∈ l := by
          intro x hx
          rcases List.append_eq_append_iff.mp e with ⟨u, hu1, hu2⟩ | ⟨u, hu1, hu2⟩
          · rcases u with _ | ⟨y, u⟩
            · simp at hu1; rw [← hu1]; exact hx
            · simp at hu2
          · rw [hu1]; simp [hx]
        have hk : Keeps (env.upTo mp1.tick) p.args.number := by
          intro t n hn'
          unfold Env.upTo at hn'
          simp only [] at hn'
          split at hn'
          · rename_i ht
            rw [hq l c [] mp1 rfl hr1 t ht] at hn'
            simp at hn'
          · simp at hn'
        obtain ⟨pb, hpb, hex⟩ := C136_delivered hC hb hd hn (fun m hm => hmsg m (hin _ (by simp [hm]))) hp hk (hall.mono hsub)
          (calls_upTo hr1 (Nat.le_refl _))
        exact ⟨p, hp, e1, pb, hpb, hex⟩
    intro l1 b l2 e
    rw [← hes] at e
    rcases List.append_eq_append_iff.mp e with ⟨u, hu1, hu2⟩ | ⟨u, hu1, hu2⟩
    · obtain ⟨s, hs, he, h⟩ := hparent b (by rw [hu2]; simp)
      refine ⟨s, hs, he, h.imp id ?_⟩
      rintro ⟨p, hp, e1, a, ha, e⟩
      exact ⟨p, hp, e1, a, by rw [hu1]; simp [ha], e⟩
    · rcases u with _ | ⟨y, u⟩
      · simp at hu2
        obtain ⟨s, hs, he, h⟩ := hparent b (by rw [← hu2]; simp)
        refine ⟨s, hs, he, h.imp id ?_⟩
        rintro ⟨p, hp, e1, a, ha, e⟩
        exact ⟨p, hp, e1, a, by rw [hu1] at ha; simpa using ha, e⟩
      · simp at hu2
        obtain ⟨rfl, _⟩ := hu2
        exact ih l1 b u hu1

/-- If requests are sent only after requests were acted on, none is ever acted on. -/
theorem undisturbedCalls_of {cfg : Config} {calls : List Call} (ht : ∀ m, .msg m ∈ calls → m.key.headD 0 ≠ ReorgType) {s0 s : Sys} (hst : Sys.start cfg calls = .ok s0)
    (hcons : ∀ s, Sys.Steps C env o s0 s → UndisturbedCalls C env cfg s.calls → ∀ n, OOut.evictOlder n ∉ s.omp.log)
    (hs : CausalSteps C env o s0 s) : UndisturbedCalls C env cfg s.calls := by
  induction hs with
  | refl =>
    intro mp0 _ l1 c l2 mp1 e
    have : s0.calls = [] := by
      unfold Sys.start at hst
      obtain ⟨mp, _, hst⟩ := bind_ok.mp hst
      obtain ⟨omp, _, hst⟩ := bind_ok.mp hst
      cases hst; rfl
    rw [this] at e
    simp at e
  | step hs hstep hheard ih =>
    rename_i s1 s2
    cases hstep with
    | call htodo hout hc =>
      rename_i c cs mp
      have hc1 := hcons s1 hs.steps ih
      have hh := hheard (by simp)
      obtain ⟨mp0', omp0, ds, hn', ho, h1, h3, h4, h5, h6⟩ := mixed_inside ht hst hs.steps
      intro mp0 hn l1 d l2 mp1 e hr t htick
      rw [hn'] at hn
      cases hn
      have e : s1.calls ++ [c] = l1 ++ d :: l2 := e
      rcases l2 with _ | ⟨y, l2⟩
      · have := List.append_inj_left' e rfl
        subst this
        rw [h3] at hr
        cases hr
        cases hev : env.evict t with
        | nil => rfl
        | cons n rest => exact (hc1 n (hh t htick n (by rw [hev]; simp))).elim
      · obtain ⟨l3, z, e3⟩ : ∃ l3 z, y :: l2 = l3 ++ [z] := ⟨(y :: l2).dropLast, (y :: l2).getLast (List.cons_ne_nil _ _), (List.dropLast_concat_getLast (List.cons_ne_nil _ _)).symm⟩
        rw [e3] at e
        have e : s1.calls ++ [c] = (l1 ++ d :: l3) ++ [z] := by rw [e]; simp
        exact ih mp0' hn' l1 d l3 mp1 (List.append_inj_left' e rfl) hr t htick
    | sendBlock h1 h2 => exact ih
    | sendReorg h1 h2 => exact ih
    | sendWaiter h1 => exact ih
    | block h1 h2 => exact ih
    | reorg h1 h2 => exact ih

/-! ### One life -/

section
variable {cfg : Config} {root stored : SentBlock} {tree others : List SentBlock} {calls : List Call}

theorem Spec.MixedBelow.inj (h : MixedBelow C cfg root stored tree others calls) :
    ∀ s s', s ∈ tree ++ others → s' ∈ tree ++ others → s.args.hash = s'.args.hash → s = s' := by
  intro s s' hs hs' e
  have hd := (List.nodup_cons.mp h.distinct).2
  have h1 := find_hash hd hs
  have h2 := find_hash hd hs'
  rw [e, h2] at h1
  exact (Option.some.inj h1).symm

theorem Spec.MixedBelow.types (h : MixedBelow C cfg root stored tree others calls) (hC : C.Lawful) : ∀ m, .msg m ∈ calls → m.key.headD 0 ≠ ReorgType := by
  intro m hm
  obtain ⟨s, hs, hc⟩ := h.onlyMsgs m hm
  exact (copy_type hC (h.correct s hs) hc).1

/-- What is sent on are blocks of the tree and others not connected to it. -/
theorem Spec.MixedBelow.emitted (h : MixedBelow C cfg root stored tree others calls) (hC : C.Lawful) {cs rest : List Call} (e : calls = cs ++ rest) {mp0 mp : MP}
    (hn : newMP cfg = .ok mp0) (hr : mp0.calls C env cs = .ok mp) {pb : PB} (hpb : pb ∈ mp.emitted) :
    ∃ s ∈ tree ++ others, AsSent cfg.tracked calls s pb ∧ (s ∈ tree ∨ OfOther root tree others pb) := by
  have hin : ∀ c ∈ cs, c ∈ calls := by rw [e]; intro c hc; exact List.mem_append_left _ hc
  obtain ⟨mp', h1, h2⟩ := C136_processor (env := env) hC h.correct h.inj hn (fun m hm => h.onlyMsgs m (hin _ hm)) (fun pb hm => h.onlyBlocks pb (hin _ hm))
  rw [hr] at h1
  cases h1
  obtain ⟨s, hs, ha⟩ := h2 pb hpb
  have he := asSent_head ha
  refine ⟨s, hs, asSent_mono ha hin, ?_⟩
  rcases List.mem_append.mp hs with hs' | hs'
  · exact .inl hs'
  · right
    rcases h.beside s hs' with ⟨⟨x, hx, k1, k2⟩, k3⟩ | hl
    · obtain ⟨m, hm, e⟩ := sent_there hC h.correct h.inj hn (fun m hm => h.onlyMsgs m (hin _ hm)) hs (fun pb hm => k3 pb (hin _ hm)) hr ⟨pb, hpb, he.hash⟩ x hx k1
      exact (k2 m (mem_messagesIn.mpr (hin _ (mem_messagesIn.mp hm))) e).elim
    · exact ⟨s, hs', he, hl⟩

theorem Spec.MixedBelow.kind (h : MixedBelow C cfg root stored tree others calls) (hC : C.Lawful) {cs rest : List Call} (e : calls = cs ++ rest) {mp0 mp : MP}
    (hn : newMP cfg = .ok mp0) (hr : mp0.calls C env cs = .ok mp) {pb : PB} (hpb : pb ∈ mp.emitted) : OfTree tree pb ∨ OfOther root tree others pb := by
  obtain ⟨s, hs, ha, k | k⟩ := h.emitted hC e hn hr hpb
  · exact .inl ⟨s, k, asSent_head ha⟩
  · exact .inr k

theorem Spec.MixedBelow.ordered (h : MixedBelow C cfg root stored tree others calls) (hC : C.Lawful)
    (hf : BlocksFollow root tree calls) (hsf : StoredComesFirst stored tree calls) {mp0 : MP}
    (hn : newMP cfg = .ok mp0) {cs rest : List Call} (hcs : calls = cs ++ rest) {mp : MP} (hr : mp0.calls C env cs = .ok mp)
    (hq : ∀ l1 c l2 mp1, cs = l1 ++ c :: l2 → mp0.calls C env l1 = .ok mp1 → ∀ t, t < mp1.tick → env.evict t = []) : TreeOrder cfg root.args.hash tree mp.emitted := by
  have hem : ∀ a ∈ mp.emitted, ∀ p ∈ tree, a.hash = p.args.hash → OfTree tree a := by
    intro a ha p hp e
    obtain ⟨s, hs, he, _⟩ := h.emitted hC hcs hn hr ha
    have : s = p := h.inj _ _ hs (List.mem_append_left _ hp) ((asSent_head he).hash.symm.trans e)
    exact ⟨p, hp, this ▸ asSent_head he⟩
  refine ⟨?_, ?_⟩
  · rintro l1 b l2 e ⟨t, ht, htb⟩
    obtain ⟨sb, hsb, ha, (k | k) | ⟨p, hp, ⟨k, hpt⟩, a, ha', ea⟩⟩ := sent_after (free := fun s => s ∈ others ∨ s = root)
      (need := fun s p => p.args.hash = s.args.parentHash ∧ p ∈ tree) hC h.correct h.inj h.onlyMsgs h.onlyBlocks (fun l1 c l2 e s hs hb => by
        rcases List.mem_append.mp hs with hs | hs
        · rcases hf l1 c l2 e s hs hb with k | ⟨p, hp, k1, k2⟩
          · exact .inl (.inr k)
          · exact .inr ⟨p, List.mem_append_left _ hp, ⟨k1, hp⟩, k2⟩
        · exact .inl (.inl hs)) hn hcs hr hq l1 b l2 e
    · exact (h.tree_other ht k (by rw [← htb.hash, (asSent_head ha).hash])).elim
    · left; rw [(asSent_head ha).hash, k]
    · exact .inr ⟨a, ha', hem a (by rw [e]; simp [ha']) p hpt ea, by rw [ea, k, (asSent_head ha).parent]⟩
  · rintro l1 b l2 e ⟨t, ht, htb⟩
    obtain ⟨sb, hsb, ha, (k | k | k) | ⟨p, hp, k, a, ha', ea⟩⟩ := sent_after
      (free := fun s => s ∈ others ∨ s = stored ∨ s.args.weight < stored.args.weight) (need := fun _ p => p = stored)
      hC h.correct h.inj h.onlyMsgs h.onlyBlocks (fun l1 c l2 e s hs hb => by
        rcases List.mem_append.mp hs with hs | hs
        · rcases hsf l1 c l2 e s hs hb with k | k | k
          · exact .inl (.inr (.inl k))
          · exact .inl (.inr (.inr k))
          · exact .inr ⟨stored, List.mem_append_left _ h.inTree, rfl, k⟩
        · exact .inl (.inl hs)) hn hcs hr hq l1 b l2 e
    · exact (h.tree_other ht k (by rw [← htb.hash, (asSent_head ha).hash])).elim
    · left; rw [(asSent_head ha).hash, k, h.hash]
    · right; left
      have := (asSent_head ha).weight
      have := h.weight
      omega
    · right; right
      subst k
      exact ⟨a, ha', hem a (by rw [e]; simp [ha']) p h.inTree ea, by rw [ea, h.hash]⟩

theorem Spec.MixedBelow.consequences (h : MixedBelow C cfg root stored tree others calls) (hC : C.Lawful)
    (hwin : ((tree ++ others).length : Int) ≤ 2 * cfg.reorgThreshold)
    (hf : BlocksFollow root tree calls) (hsf : StoredComesFirst stored tree calls) {s0 s : Sys}
    (hst : Sys.start cfg calls = .ok s0) (hs : Sys.Steps C env o s0 s) (key : UndisturbedCalls C env cfg s.calls) :
    (∀ n, OOut.evictOlder n ∉ s.omp.log) ∧ (cfg.lastHash ∈ hashes (blocksOf s.ops) → FirstHeaviest (blocksIn tree (blocksOf s.ops)) s.omp.lastHash) ∧
      (cfg.lastHash ∉ hashes (blocksOf s.ops) → s.omp.log = [] ∧ s.omp.lastHash = cfg.lastHash) := by
  obtain ⟨mp0, omp0, ds, hn, ho, h1, h3, h4, h5, h6⟩ := mixed_inside (h.types hC) hst hs
  have hds : blocksOf s.ops = ds := by rw [h4, blocksOf_map]
  have hord := h.ordered hC hf hsf hn h1 h3 (key mp0 hn)
  rw [hds]
  rw [h6] at hord
  refine h.handled hwin ho ?_ hord.prefix h5
  intro pb hpb
  exact h.kind hC h1 hn h3 (by rw [h6]; simp [hpb])

/-- **C154**, while running: as long as the stored block has not been handled, nothing is told to the subscribers; from then on their head is
the first-handled block of maximal weight among those of the tree that were handled. Nothing is asked to be dropped. -/
theorem C154_head (h : MixedBelow C cfg root stored tree others calls) (hC : C.Lawful) (hwin : ((tree ++ others).length : Int) ≤ 2 * cfg.reorgThreshold)
    (hf : BlocksFollow root tree calls) (hsf : StoredComesFirst stored tree calls) {s0 s : Sys}
    (hst : Sys.start cfg calls = .ok s0) (hs : CausalSteps C env o s0 s) :
    (∀ n, OOut.evictOlder n ∉ s.omp.log) ∧ (cfg.lastHash ∈ hashes (blocksOf s.ops) → FirstHeaviest (blocksIn tree (blocksOf s.ops)) s.omp.lastHash) ∧
      (cfg.lastHash ∉ hashes (blocksOf s.ops) → s.omp.log = [] ∧ s.omp.lastHash = cfg.lastHash) :=
  h.consequences hC hwin hf hsf hst hs.steps
    (undisturbedCalls_of (h.types hC) hst (fun _ hs key => (h.consequences hC hwin hf hsf hst hs key).1) hs)

/-- **C154**, no faults: whatever the order of the calls, no goroutine is ever about to fault, and every execution can be completed. -/
theorem C154_no_fault (h : MixedBelow C cfg root stored tree others calls) (hC : C.Lawful) (hwin : ((tree ++ others).length : Int) ≤ 2 * cfg.reorgThreshold)
    {s0 s : Sys} (hst : Sys.start cfg calls = .ok s0) (hs : Sys.Steps C env o s0 s) :
    ¬ Faulty C env o s ∧ ∃ s', Sys.Steps C env o s s' ∧ s'.Drained := by
  have key : ∀ s, Sys.Steps C env o s0 s → ¬ Faulty C env o s := by
    intro s hs
    obtain ⟨mp0, omp0, ds, hn, ho, h1, h3, h4, h5, h6⟩ := mixed_inside (h.types hC) hst hs
    rintro (⟨c, cs, f, ht, hf⟩ | ⟨pb, r, f, ht, hf⟩)
    · have hin : ∀ x ∈ s.calls ++ [c], x ∈ calls := by
        rw [h1, ht]; intro x hx
        rcases List.mem_append.mp hx with hx | hx
        · simp [hx]
        · simp [List.mem_singleton.mp hx]
      obtain ⟨mp', hr, _⟩ := C136_processor (env := env) hC h.correct h.inj hn (fun m hm => h.onlyMsgs m (hin _ hm)) (fun pb hm => h.onlyBlocks pb (hin _ hm))
      obtain ⟨mp1, g1, g2⟩ := calls_append hr
      rw [h3] at g1
      cases g1
      have := calls_one g2
      rw [hf] at this
      cases this
    · have w : ∀ b ∈ ds ++ [pb], (((forestWorld (tree ++ others)).Has b ∧ b.hash ≠ Hash.zero) ∧ (forestWorld (tree ++ others)).Heavier b ∧
          (forestWorld (tree ++ others)).Numbered b ∧ ¬ Forbidden cfg.whitelist b ∧ b.hash ∈ (tree ++ others).map (·.args.hash)) := by
        intro x hx
        obtain ⟨s', hs', ha, _⟩ := h.emitted hC h1 hn h3 (pb := x) (by
          rw [h6, ht]
          rcases List.mem_append.mp hx with hx | hx
          · simp [hx]
          · simp [List.mem_singleton.mp hx])
        exact h.world hs' (asSent_head ha)
      obtain ⟨s', g1⟩ := C35_partial (o := o) (bs := ds ++ [pb]) h.storedHash h.storedWeight (fun b hb => (w b hb).1) (fun b hb => (w b hb).2.1)
        (fun b hb => (w b hb).2.2.1) ⟨(tree ++ others).map (·.args.hash), by simpa using hwin, h.inU, fun b hb => (w b hb).2.2.2.2⟩ ho
      rw [List.map_append] at g1
      unfold OMP.run at g1 h5
      rw [List.foldlM_append, h5] at g1
      have g1 : (([pb].map OOp.block).foldlM (OMP.op o) s.omp) = .ok s' := g1
      rw [List.map_cons, List.foldlM_cons] at g1
      rw [show OMP.op o s.omp (.block pb) = .error f from hf] at g1
      simp [bind, Except.bind] at g1
  refine ⟨key s hs, ?_⟩
  obtain ⟨s', h1, h2⟩ := s.drains (C := C) (env := env) (o := o) ((Piped.start (C := C) (env := env) (o := o) hst).steps hs).room
  exact ⟨s', h1, h2.resolve_right (key s' (steps_trans hs h1))⟩

/-- **C154**, one life at the end: when every block of the tree has come and everything has been handled, the head of the subscribers is a block of maximal
weight of the whole tree. -/
theorem C154_end (h : MixedBelow C cfg root stored tree others calls) (hC : C.Lawful) (hwin : ((tree ++ others).length : Int) ≤ 2 * cfg.reorgThreshold)
    (hf : BlocksFollow root tree calls) (hsf : StoredComesFirst stored tree calls) (ha : ∀ s ∈ tree, Arrived calls s) {s0 s : Sys}
    (hst : Sys.start cfg calls = .ok s0) (hs : CausalSteps C env o s0 s) (hd : s.Drained) (hg : Heard env s) :
    ∃ top ∈ tree, s.omp.lastHash = top.args.hash ∧ ∀ sb ∈ tree, sb.args.weight ≤ top.args.weight := by
  have hin := C154_head h hC hwin hf hsf hst hs
  obtain ⟨mp0, omp0, ds, hn, ho, h1, h3, h4, h5, h6⟩ := mixed_inside (h.types hC) hst hs.steps
  have hem := fun pb => h.emitted (pb := pb) hC h1 hn h3
  rw [hd.1, List.append_nil] at h1
  rw [← h1] at h3
  rw [hd.2.1, hd.2.2.1] at h6
  have h6 : s.mp.emitted = ds := by simpa [blocksSent] using h6
  have hds : blocksOf s.ops = ds := by rw [h4, blocksOf_map]
  have hk : ∀ n, Keeps (env.upTo s.mp.tick) n := by
    intro n t x hx
    unfold Env.upTo at hx
    simp only [] at hx
    split at hx
    · rename_i ht
      exact (hin.1 x (hg t ht x hx)).elim
    · simp at hx
  have hall : ∀ sb ∈ tree, ∃ pb ∈ ds, HeadOf sb pb := by
    intro sb hsb
    obtain ⟨pb, hpb, he⟩ := C136_delivered hC h.correct h.inj hn h.onlyMsgs (List.mem_append_left _ hsb) (hk _) (ha sb hsb) (calls_upTo h3 (Nat.le_refl _))
    obtain ⟨sb', hsb', hx, _⟩ := hem pb hpb
    have := h.inj _ _ hsb' (List.mem_append_left _ hsb) ((asSent_head hx).hash.symm.trans he)
    subst this
    exact ⟨pb, by rw [← h6]; exact hpb, asSent_head hx⟩
  obtain ⟨pst, hpst, hest⟩ := hall stored h.inTree
  have hne : cfg.lastHash ∈ hashes (blocksOf s.ops) := by
    rw [hds, ← h.hash, ← hest.hash]
    exact mem_hashes hpst
  obtain ⟨l1, b, l2, e, e1, e2, _⟩ := hin.2.1 hne
  rw [hds] at e e2
  obtain ⟨hb, hbt⟩ := List.mem_filter.mp (show b ∈ blocksIn tree ds by rw [e]; simp)
  obtain ⟨top, htop, hx⟩ := (h.inTree_iff (h.kind hC (by rw [List.append_nil]) hn h3 (by rw [h6]; exact hb))).mp (by simpa using hbt)
  refine ⟨top, htop, by rw [← e1, hx.hash], ?_⟩
  intro sb hsb
  obtain ⟨pb, hpb, he⟩ := hall sb hsb
  have := e2 pb (List.mem_filter.mpr ⟨hpb, by simpa using ⟨sb, hsb, he.hash.symm⟩⟩)
  have h8 := he.weight
  have h9 := hx.weight
  omega

end

/-! ### Several lives -/

section
variable {cfg : Config} {W : PB → Prop} {root first st : SentBlock} {all tree others : List SentBlock} {calls : List Call}

/-- A block as one of `all` was produced or handed over. -/
def OneGiven (tracked : GoStr → Bool) (W : PB → Prop) (all : List SentBlock) (b : PB) : Prop := ∃ sb ∈ all, AsGiven tracked W sb b

theorem asGiven_head {tracked : GoStr → Bool} {s : SentBlock} {pb : PB} (h : AsGiven tracked W s pb) : HeadOf s pb := by
  rcases h with h | ⟨pb0, _, h, e⟩
  · exact exact_head h
  · rw [← e] at h; exact ⟨h.number, h.weight, h.hash, h.parent⟩

theorem oneGiven_hashed {tr : GoStr → Bool} (hd : (Hash.zero :: all.map (·.args.hash)).Nodup) : Hashed (OneGiven tr W all) := by
  obtain ⟨h1, h2⟩ := List.nodup_cons.mp hd
  refine ⟨?_, ?_⟩
  · rintro b ⟨sb, hsb, he⟩ e
    refine h1 (List.mem_map.mpr ⟨sb, hsb, ?_⟩)
    rw [← (asGiven_head he).hash, e]
  · rintro a b ⟨sa, hsa, ha⟩ ⟨sb, hsb, hb⟩ e
    have ha := asGiven_head ha
    have hb := asGiven_head hb
    have fa := find_hash h2 hsa
    have fb := find_hash h2 hsb
    rw [← ha.hash, e, hb.hash, fb] at fa
    cases fa
    rw [ha.parent, hb.parent]

/-- What happens in one life. -/
theorem mixedLife_inside (hL : MixedLifeGiven C cfg W all st root tree others calls) (hC : C.Lawful) {s0 s : Sys}
    (hst : Sys.start (startOn cfg st) calls = .ok s0) (hs : Sys.Steps C env o s0 s) :
    ∃ (omp0 : OMP) (ds : List PB), newOMP (startOn cfg st) = .ok omp0 ∧ s.ops = ds.map OOp.block ∧ omp0.run o (ds.map OOp.block) = .ok s.omp ∧
      (∀ b ∈ ds, (∃ sb ∈ tree ++ others, AsGiven cfg.tracked W sb b) ∧ (OfTree tree b ∨ OfOther root tree others b)) ∧
      headAfter st.args.hash s.omp.log = s.omp.lastHash := by
  obtain ⟨mp0, omp0, ds, hn, ho, h1, h3, h4, h5, h6⟩ := mixed_inside (hL.blocks.types hC) hst hs
  have hex : ∀ b ∈ ds, (∃ sb ∈ tree ++ others, AsGiven cfg.tracked W sb b) ∧ (OfTree tree b ∨ OfOther root tree others b) := by
    intro b hb
    have hb' : b ∈ s.mp.emitted := by rw [h6]; simp [hb]
    obtain ⟨sb, hsb, ha, _⟩ := hL.blocks.emitted hC h1 hn h3 hb'
    exact ⟨⟨sb, hsb, ha.imp id (fun ⟨pb0, k1, k2⟩ => ⟨pb0, hL.whole pb0 k1, k2⟩)⟩, hL.blocks.kind hC h1 hn h3 hb'⟩
  refine ⟨omp0, ds, ho, h4, h5, hex, ?_⟩
  exact (run_fork (o := o) (W := forestWorld (tree ++ others)) (ops := ds.map OOp.block) hL.blocks.storedHash
    (by rw [blocksOf_map]; exact fun b hb => by obtain ⟨⟨sb, hsb, he⟩, _⟩ := hex b hb; exact (hL.blocks.world hsb (asGiven_head he)).1) ho h5).1.symm

/-- **C154**, what is stored: whenever a life ends, the application's head is a block of the tree it was receiving, not lighter than the one it had stored. -/
theorem C154_stored (hL : MixedLifeGiven C cfg W all st root tree others calls) (hC : C.Lawful) {s0 s : Sys}
    (hst : Sys.start (startOn cfg st) calls = .ok s0) (hs : CausalSteps C env o s0 s) :
    ∃ st' ∈ tree, st'.args.hash = headAfter st.args.hash s.omp.log ∧ st.args.weight ≤ st'.args.weight := by
  obtain ⟨omp0, ds, ho, h4, h5, hex, hh⟩ := mixedLife_inside hL hC hst hs.steps
  obtain ⟨-, g2, g3⟩ := C154_head hL.blocks hC hL.window hL.follow hL.storedFirst hst hs
  have hds : blocksOf s.ops = ds := by rw [h4, blocksOf_map]
  rw [hds] at g2 g3
  rw [hh]
  by_cases hin : (startOn cfg st).lastHash ∈ hashes ds
  · obtain ⟨l1, b, l2, e, e1, e2, _⟩ := g2 hin
    obtain ⟨hb, hbt⟩ := List.mem_filter.mp (show b ∈ blocksIn tree ds by rw [e]; simp)
    obtain ⟨sb, hsb, he⟩ := (hL.blocks.inTree_iff (hex b hb).2).mp (by simpa using hbt)
    obtain ⟨x, hx, ex⟩ := List.mem_map.mp hin
    obtain ⟨⟨sx, hsx, hgx⟩, _⟩ := hex x hx
    have hex' := asGiven_head hgx
    have hsame : sx = st := hL.blocks.inj _ _ hsx (List.mem_append_left _ hL.blocks.inTree) (by rw [← hex'.hash, ex]; rfl)
    subst hsame
    have h1 := e2 x (List.mem_filter.mpr ⟨hx, by simpa using ⟨sx, hL.blocks.inTree, hex'.hash.symm⟩⟩)
    have h2 := he.weight
    have h3 := hex'.weight
    exact ⟨sb, hsb, by rw [← he.hash, e1], by omega⟩
  · exact ⟨st, hL.blocks.inTree, (g3 hin).2.symm, Int.le_refl _⟩

/-- **C154**: over any number of lives, the application can apply all outputs; it then holds a chain of blocks, each as produced or handed over, that ends in the
block stored, which is not lighter than the first. -/
theorem C154_lives (hd : (Hash.zero :: all.map (·.args.hash)).Nodup) (hC : C.Lawful) {log : List OOut} (h : MixedLives C cfg W all first log st) :
    ∃ base chain, Replays first.args.hash log base chain ∧ Linked base chain ∧ endOf base chain = st.args.hash ∧
      (∀ b ∈ chain, ∃ sb ∈ all, AsGiven cfg.tracked W sb b) ∧ first.args.weight ≤ st.args.weight := by
  induction h with
  | first => exact ⟨_, _, .start, trivial, rfl, by simp, Int.le_refl _⟩
  | @life log st root st' tree others calls env o s0 s _ hL hst hs hin heq ih =>
    obtain ⟨base, chain, r1, r2, r3, r4, r5⟩ := ih
    obtain ⟨omp0, ds, ho, h4, h5, hex, hh⟩ := mixedLife_inside hL hC hst hs.steps
    obtain ⟨base', chain', hf⟩ := run_followingOn (oneGiven_hashed (tr := cfg.tracked) (W := W) hd) hL.blocks.storedHash (fun b hb => by
      obtain ⟨⟨sb, hsb, he⟩, _⟩ := hex b hb
      exact ⟨sb, hL.among sb hsb, he⟩) ho h5 r1 r2 r3 r4
    obtain ⟨st2, k1, k2, k3⟩ := C154_stored hL hC hst hs
    have hsame : st2 = st' := by
      have h2 := (List.nodup_cons.mp hd).2
      have fa := find_hash h2 (hL.among st2 (List.mem_append_left _ k1))
      have fb := find_hash h2 hin
      rw [k2, ← heq, fb] at fa
      cases fa; rfl
    subst hsame
    exact ⟨base', chain', hf.replays, hf.linked, by rw [hf.tip, ← hh, heq], hf.chainD, by omega⟩

/-- **C154**, the end: when in some life every block of its tree has come, over whichever transport, and everything has been handled, the application, having applied the
outputs of all lives, holds a chain of blocks that ends in a heaviest block of that tree. -/
theorem C154_lives_end (hd : (Hash.zero :: all.map (·.args.hash)).Nodup) (hC : C.Lawful) {log : List OOut} (h : MixedLives C cfg W all first log st)
    (hL : MixedLifeGiven C cfg W all st root tree others calls) (ha : ∀ s ∈ tree, Arrived calls s) {s0 s : Sys}
    (hst : Sys.start (startOn cfg st) calls = .ok s0) (hs : CausalSteps C env o s0 s) (hdr : s.Drained) (hg : Heard env s) :
    ∃ base chain, ∃ top ∈ tree, Replays first.args.hash (log ++ s.omp.log) base chain ∧ Linked base chain ∧ endOf base chain = top.args.hash ∧
      (∀ b ∈ chain, ∃ sb ∈ all, AsGiven cfg.tracked W sb b) ∧ (∀ sb ∈ tree, sb.args.weight ≤ top.args.weight) ∧
      MixedLives C cfg W all first (log ++ s.omp.log) top := by
  obtain ⟨top, q4, q3, q5⟩ := C154_end hL.blocks hC hL.window hL.follow hL.storedFirst ha hst hs hdr hg
  obtain ⟨omp0, ds, ho, h4, h5, hex, hh⟩ := mixedLife_inside hL hC hst hs.steps
  have hlive : MixedLives C cfg W all first (log ++ s.omp.log) top :=
    .life h hL hst hs (hL.among top (List.mem_append_left _ q4)) (by rw [hh, q3])
  obtain ⟨base, chain, r1, r2, r3, r4, -⟩ := C154_lives hd hC hlive
  exact ⟨base, chain, top, q4, r1, r2, r3, r4, q5, hlive⟩

/-- **C154**, the contents: if everything is tracked and the transports hand over whole blocks with all their values, every block is exactly as produced. -/
theorem C154_exact (hd : (Hash.zero :: all.map (·.args.hash)).Nodup) (ht : ∀ k, cfg.tracked k = true) (hW : ∀ pb, W pb → ∃ s ∈ all, WsSeen s.args s.subs pb)
    {sb : SentBlock} {b : PB} (hsb : sb ∈ all) (hb : AsGiven cfg.tracked W sb b) : Exact cfg.tracked sb.schema sb.args sb.subs b := by
  rcases hb with he | ⟨pb0, h1, h2, e⟩
  · exact he
  · obtain ⟨s', hs', hws⟩ := hW pb0 h1
    have : s' = sb := by
      have h2' := (List.nodup_cons.mp hd).2
      have fa := find_hash h2' hs'
      have fb := find_hash h2' hsb
      rw [← hws.hash, h2.hash, fb] at fa
      cases fa; rfl
    subst this
    rw [← e] at hws
    exact exact_of_wsSeen ht ⟨hws.number, hws.weight, hws.hash, hws.parent, hws.values, hws.deletes⟩

end

/-- **C154**: the order within each transport is enough for the stored block, too. -/
theorem C154_transports {stored : SentBlock} {tree : List SentBlock} {ls : List (List Call)} {calls : List Call} (hw : Weave ls calls)
    (h : ∀ l ∈ ls, StoredComesFirst stored tree l) : StoredComesFirst stored tree calls := by
  intro l1 c l2 e s hs hb
  obtain ⟨l, hl, a, b, e1, e2⟩ := hw.split e
  rcases h l hl a c b e1 s hs hb with k | k | k
  · exact .inl k
  · exact .inr (.inl k)
  · exact .inr (.inr (k.mono e2))

/-- C154: two lives with the same two transports. The first is started from `exNext` and ends at the heavier fork; the second is started there. A very heavy block not connected
to these comes, too. -/
example : ∃ first root tree others ls calls st log, (tree.length = 3 ∧ others ≠ [] ∧ root ≠ first ∧ first ≠ st ∧ ls.length = 2 ∧ (∃ m, .msg m ∈ calls) ∧ ∃ pb, .block pb ∈ calls) ∧
    Weave ls calls ∧ (∀ l ∈ ls, BlocksFollow root tree l ∧ StoredComesFirst first tree l ∧ StoredComesFirst st tree l) ∧
    MixedLifeGiven Avro.codec exForkCfg (fun pb => .block pb ∈ calls) (tree ++ others) first root tree others calls ∧
    MixedLifeGiven Avro.codec exForkCfg (fun pb => .block pb ∈ calls) (tree ++ others) st root tree others calls ∧
    (∀ s ∈ tree, Arrived calls s) ∧
    MixedLives Avro.codec exForkCfg (fun pb => .block pb ∈ calls) (tree ++ others) first log st ∧
    ∃ s0 s base chain, Sys.start (startOn exForkCfg st) calls = .ok s0 ∧ CausalSteps Avro.codec exEnv .plain s0 s ∧ s.Drained ∧ Heard exEnv s ∧
      Replays first.args.hash (log ++ s.omp.log) base chain ∧ endOf base chain = exForkBlock.hash := by
  obtain ⟨m1, h1⟩ := exBlock_produced
  obtain ⟨p', tm, h⟩ := exNext_ok
  obtain ⟨m2, h2⟩ := produced_exists h exSubs
  obtain ⟨p', tm, h⟩ := exForkBlock_ok
  obtain ⟨m3, h3⟩ := produced_exists h exSubs
  obtain ⟨p', tm, h⟩ := exStrayBlock_ok
  obtain ⟨m4, h4⟩ := produced_exists h exSubs
  let root : SentBlock := ⟨exProducer.schema, exBlock, exSubs, m1⟩
  let next : SentBlock := ⟨exProducer.schema, exNext, exSubs, m2⟩
  let fork : SentBlock := ⟨exProducer.schema, exForkBlock, exSubs, m3⟩
  let stray : SentBlock := ⟨exProducer.schema, exStrayBlock, exSubs, m4⟩
  let tree : List SentBlock := [root, next, fork]
  have hmem : ∀ s, s ∈ tree ↔ s = root ∨ s = next ∨ s = fork := by intro s; simp [tree]
  have hmem' : ∀ s, s ∈ tree ++ [stray] → s = root ∨ s = next ∨ s = fork ∨ s = stray := by intro s; simp [tree]
  have hcorrect : ∀ s ∈ tree ++ [stray], s.Correct Avro.codec := by
    intro s hs
    rcases hmem' s hs with rfl | rfl | rfl | rfl
    · exact ⟨h1, exBlock_wf⟩
    · exact ⟨h2, exNext_wf⟩
    · exact ⟨h3, exForkBlock_wf⟩
    · exact ⟨h4, exStrayBlock_wf⟩
  let A : List Call := (recv m1).map Call.msg
  let B : List Call := (recv m2).map Call.msg
  let ws : List Call := [.block (exHanded exBlock), .block (exHanded exNext), .block (exHanded exForkBlock), .block (exHanded exStrayBlock)]
  have hW : Weave [A ++ B, ws] (A ++ (ws ++ B)) := by
    refine Weave.take (pre := []) ?_ A
    have hB := Weave.take (pre := []) (post := [[]]) (l := []) (cs := []) (.nil (by simp)) B
    have := Weave.take (pre := [B]) (post := []) (l := []) (cs := B) (by simpa using hB) ws
    simpa using this
  have hAh : ∀ c ∈ A, ∀ h, Begins h c → h = exHash 1 := by
    intro c hc h hb
    obtain ⟨m, hm, rfl⟩ := List.mem_map.mp hc
    have := copy_hash Avro.codec_lawful (hcorrect root (by simp [tree])) (recv_copy (ms := m1) (fun _ h => h) hm)
    exact hb.2.symm.trans this
  have hBh : ∀ c ∈ B, ∀ h, Begins h c → h = exHash 3 := by
    intro c hc h hb
    obtain ⟨m, hm, rfl⟩ := List.mem_map.mp hc
    have := copy_hash Avro.codec_lawful (hcorrect next (by simp [tree])) (recv_copy (ms := m2) (fun _ h => h) hm)
    exact hb.2.symm.trans this
  have hT : ∀ st ∈ tree, MixedBelow Avro.codec (startOn exForkCfg st) root st tree [stray] (A ++ (ws ++ B)) := by
    intro st hst
    refine ⟨⟨by simp [tree], ?_, ?_, ?_, ?_, ?_, ?_, ?_, hst, rfl, ?_⟩, hcorrect, ?_, ?_, ?_⟩
    · show exHash 2 ∉ [exHash 1, exHash 3, exHash 5]
      decide
    · intro s hs
      rcases (hmem s).mp hs with rfl | rfl | rfl
      · exact .inl rfl
      · exact .inr ⟨root, by simp [tree], rfl⟩
      · exact .inr ⟨root, by simp [tree], rfl⟩
    · have : ∀ s ∈ [exBlock, exNext, exForkBlock, exStrayBlock], ∀ p ∈ [exBlock, exNext, exForkBlock, exStrayBlock],
          p.hash = s.parentHash → s.number = p.number + 1 ∧ p.weight < s.weight := by decide
      intro s hs p hp
      refine this s.args ?_ p.args ?_
      · rcases hmem' s hs with rfl | rfl | rfl | rfl <;> simp [root, next, fork, stray]
      · rcases hmem' p hp with rfl | rfl | rfl | rfl <;> simp [root, next, fork, stray]
    · have : ∀ s ∈ [exBlock, exNext, exForkBlock, exStrayBlock], ∀ p ∈ [exBlock, exNext, exForkBlock, exStrayBlock],
          s.parentHash = p.parentHash → s.number = p.number := by decide
      intro s hs p hp
      refine this s.args ?_ p.args ?_
      · rcases hmem' s hs with rfl | rfl | rfl | rfl <;> simp [root, next, fork, stray]
      · rcases hmem' p hp with rfl | rfl | rfl | rfl <;> simp [root, next, fork, stray]
    · intro s hs
      rcases hmem' s hs with rfl | rfl | rfl | rfl
      · exact show (0 : Int) < 300 by decide
      · exact show (0 : Int) < 310 by decide
      · exact show (0 : Int) < 320 by decide
      · exact show (0 : Int) < 999 by decide
    · show [Hash.zero, exHash 1, exHash 3, exHash 5, exHash 6].Nodup
      decide
    · intro s _ x hx
      simp [startOn, exForkCfg, exCfg] at hx
    · rcases (hmem st).mp hst with rfl | rfl | rfl <;> rfl
    · intro m hm
      have : m ∈ recv m1 ∨ m ∈ recv m2 := by simpa [A, B, ws] using hm
      rcases this with hm | hm
      · exact ⟨root, by simp [tree], recv_copy (ms := m1) (fun _ h => h) hm⟩
      · exact ⟨next, by simp [tree], recv_copy (ms := m2) (fun _ h => h) hm⟩
    · intro pb hm
      have : pb = exHanded exBlock ∨ pb = exHanded exNext ∨ pb = exHanded exForkBlock ∨ pb = exHanded exStrayBlock := by simpa [A, B, ws] using hm
      rcases this with rfl | rfl | rfl | rfl
      · exact ⟨root, by simp [tree], ⟨rfl, rfl, rfl, rfl⟩⟩
      · exact ⟨next, by simp [tree], ⟨rfl, rfl, rfl, rfl⟩⟩
      · exact ⟨fork, by simp [tree], ⟨rfl, rfl, rfl, rfl⟩⟩
      · exact ⟨stray, by simp, ⟨rfl, rfl, rfl, rfl⟩⟩
    · intro s hs
      simp only [List.mem_singleton] at hs
      subst hs
      refine .inr ⟨?_, show exHash 2 ≠ exHash 6 by decide⟩
      show exHash 7 ∉ [exHash 1, exHash 3, exHash 5]
      decide
  have hF : ∀ l ∈ [A ++ B, ws], BlocksFollow root tree l := by
    intro l hl l1 c l2 e s hs hb
    by_cases hr : s = root
    · exact .inl hr
    refine .inr ⟨root, by simp [tree], ?_, ?_⟩
    · rcases (hmem s).mp hs with rfl | rfl | rfl
      · exact (hr rfl).elim
      · rfl
      · rfl
    · have hne : s.args.hash ≠ exBlock.hash := by
        rcases (hmem s).mp hs with rfl | rfl | rfl
        · exact (hr rfl).elim
        · exact show exHash 3 ≠ exHash 1 by decide
        · exact show exHash 5 ≠ exHash 1 by decide
      have hl : l = A ++ B ∨ l = ws := by simpa using hl
      rcases hl with rfl | rfl
      · have hno : c ∉ A := fun hc => hne (hAh c hc _ hb)
        have hpre : ∀ x ∈ A, x ∈ l1 := by
          rcases List.append_eq_append_iff.mp e with ⟨u, hu1, hu2⟩ | ⟨u, hu1, hu2⟩
          · intro x hx; rw [hu1]; simp [hx]
          · rcases u with _ | ⟨y, u⟩
            · rw [hu1]; simp
            · simp at hu2
              exact (hno (by rw [hu1, ← hu2.1]; simp)).elim
        refine .inl fun x hx => ?_
        obtain ⟨y, hy, hxy⟩ := recv_all m1 x hx
        exact ⟨y, mem_messagesIn.mpr (hpre _ (List.mem_map.mpr ⟨y, hy, rfl⟩)), hxy⟩
      · refine .inr ⟨exHanded exBlock, ?_, rfl⟩
        rcases l1 with _ | ⟨y, l1⟩
        · simp only [ws, List.nil_append, List.cons.injEq] at e
          rw [← e.1] at hb
          exact (hne hb.symm).elim
        · simp only [ws, List.cons_append, List.cons.injEq] at e
          rw [← e.1]; simp
  have hSF : ∀ l ∈ [A ++ B, ws], StoredComesFirst next tree l := by
    intro l hl l1 c l2 e s hs hb
    rcases (hmem s).mp hs with rfl | rfl | rfl
    · exact .inr (.inl (show (300 : Int) < 310 by decide))
    · exact .inl rfl
    · have hl : l = A ++ B ∨ l = ws := by simpa using hl
      rcases hl with rfl | rfl
      · have hc : c ∈ A ++ B := by rw [e]; simp
        rcases List.mem_append.mp hc with hc | hc
        · exact absurd (hAh c hc _ hb) (show exHash 5 ≠ exHash 1 by decide)
        · exact absurd (hBh c hc _ hb) (show exHash 5 ≠ exHash 3 by decide)
      · refine .inr (.inr (.inr ⟨exHanded exNext, ?_, rfl⟩))
        rcases l1 with _ | ⟨y, _ | ⟨z, l1⟩⟩
        · simp only [ws, List.nil_append, List.cons.injEq] at e
          rw [← e.1] at hb
          exact absurd hb (show exHash 1 ≠ exHash 5 by decide)
        · simp only [ws, List.cons_append, List.nil_append, List.cons.injEq] at e
          rw [← e.2.1] at hb
          exact absurd hb (show exHash 3 ≠ exHash 5 by decide)
        · simp only [ws, List.cons_append, List.cons.injEq] at e
          rw [← e.2.1]; simp
  have hSF' : ∀ l, StoredComesFirst fork tree l := by
    intro l l1 c l2 e s hs hb
    rcases (hmem s).mp hs with rfl | rfl | rfl
    · exact .inr (.inl (show (300 : Int) < 320 by decide))
    · exact .inr (.inl (show (310 : Int) < 320 by decide))
    · exact .inl rfl
  have hA : ∀ s ∈ tree, Arrived (A ++ (ws ++ B)) s := by
    intro s hs
    rcases (hmem s).mp hs with rfl | rfl | rfl
    · exact .inr ⟨exHanded exBlock, by simp [ws], rfl⟩
    · exact .inr ⟨exHanded exNext, by simp [ws], rfl⟩
    · exact .inr ⟨exHanded exForkBlock, by simp [ws], rfl⟩
  have hw : ((tree ++ [stray]).length : Int) ≤ 2 * exForkCfg.reorgThreshold := by show (4 : Int) ≤ 2 * 2; decide
  have hL1 : MixedLifeGiven Avro.codec exForkCfg (fun pb => .block pb ∈ A ++ (ws ++ B)) (tree ++ [stray]) next root tree [stray] (A ++ (ws ++ B)) :=
    ⟨fun _ h => h, fun _ h => h, hT next (by simp [tree]), hw, C153_transports hW hF, C154_transports hW hSF⟩
  have hL2 : MixedLifeGiven Avro.codec exForkCfg (fun pb => .block pb ∈ A ++ (ws ++ B)) (tree ++ [stray]) fork root tree [stray] (A ++ (ws ++ B)) :=
    ⟨fun _ h => h, fun _ h => h, hT fork (by simp [tree]), hw, C153_transports hW hF, hSF' _⟩
  have hD : (Hash.zero :: (tree ++ [stray]).map (·.args.hash)).Nodup := hL1.blocks.distinct
  have top_fork : ∀ top ∈ tree, (∀ sb ∈ tree, sb.args.weight ≤ top.args.weight) → top = fork := by
    intro top ht hx
    have h320 := hx fork (by simp [tree])
    rcases (hmem top).mp ht with rfl | rfl | rfl
    · exact absurd h320 (show ¬ (320 : Int) ≤ 300 by decide)
    · exact absurd h320 (show ¬ (320 : Int) ≤ 310 by decide)
    · rfl
  have heard : ∀ s, Heard exEnv s := fun s t _ n hn => by simp [exEnv] at hn
  obtain ⟨s0, hst⟩ : ∃ s0, Sys.start (startOn exForkCfg next) (A ++ (ws ++ B)) = .ok s0 := ⟨_, rfl⟩
  obtain ⟨s, hs, hd⟩ := (C154_no_fault (env := exEnv) (o := .plain) hL1.blocks Avro.codec_lawful hw hst .refl).2
  obtain ⟨_, _, top, ht, _, _, _, _, hx, hlive⟩ := C154_lives_end hD Avro.codec_lawful .first hL1 hA hst (causal_of_none (fun _ => rfl) hs) hd (heard s)
  obtain rfl := top_fork top ht hx
  obtain ⟨t0, htt⟩ : ∃ t0, Sys.start (startOn exForkCfg fork) (A ++ (ws ++ B)) = .ok t0 := ⟨_, rfl⟩
  obtain ⟨t, hts, htd⟩ := (C154_no_fault (env := exEnv) (o := .plain) hL2.blocks Avro.codec_lawful hw htt .refl).2
  have htc := causal_of_none (fun _ => rfl) hts
  obtain ⟨base, chain, top, ht, r1, _, r3, _, hx, _⟩ := C154_lives_end hD Avro.codec_lawful hlive hL2 hA htt htc htd (heard t)
  obtain rfl := top_fork top ht hx
  refine ⟨next, root, tree, [stray], _, _, fork, _, ⟨rfl, by simp, fun e => absurd (congrArg (fun s : SentBlock => s.args.hash) e) (show exHash 1 ≠ exHash 3 by decide),
    fun e => absurd (congrArg (fun s : SentBlock => s.args.hash) e) (show exHash 3 ≠ exHash 5 by decide), rfl, ?_, ⟨exHanded exBlock, by simp [ws]⟩⟩, hW,
    fun l hl => ⟨hF l hl, hSF l hl, hSF' l⟩, hL1, hL2, hA, hlive, t0, t, base, chain, htt, htc, htd, heard t, r1, r3⟩
  obtain ⟨x, hx⟩ := List.exists_mem_of_ne_nil _ h1.1
  obtain ⟨y, hy, _⟩ := recv_all m1 x hx
  exact ⟨y, List.mem_append_left _ (List.mem_map.mpr ⟨y, hy, rfl⟩)⟩

/-- C154, the contents: a consumer that tracks everything, handed `exNext` whole. -/
example : ∃ sb, WsSeen sb.args sb.subs (exHanded exNext) ∧ AsGiven exForkCfg.tracked (· = exHanded exNext) sb (exHanded exNext) ∧ ∀ k, exForkCfg.tracked k = true :=
  ⟨⟨[], exNext, exSubs, []⟩, exHanded_seen.2.1, .inr ⟨_, rfl, ⟨rfl, rfl, rfl, rfl⟩, rfl⟩, fun _ => rfl⟩

end Verif
