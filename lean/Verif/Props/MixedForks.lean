import Verif.Props.Mixed
import Verif.Props.Endless
/-!
# C153: a consumer of several transports, with forks

C136 is about a chain, C86 and C111 about messages only, C89 about complete blocks only. Here messages and complete blocks of a tree come, each transport in an order in
which no block comes before its parent.
-/
namespace Verif

/-! ## Specification -/

/-- What the transports hand over: messages of the blocks of a tree, and blocks with the headers of some of them. -/
structure Spec.MixedTree (C : Codec) (cfg : Config) (root : SentBlock) (tree : List SentBlock) (calls : List Call) : Prop extends Spec.HeaderTree cfg root tree where
  correct : ∀ s ∈ tree, s.Correct C
  onlyMsgs : ∀ m, .msg m ∈ calls → ∃ s ∈ tree, Copy s.msgs m
  onlyBlocks : ∀ pb, .block pb ∈ calls → ∃ s ∈ tree, HeadOf s pb

/-- With this call a block begins: its header, or the whole of it. -/
def Spec.Begins (h : Hash) : Call → Prop
  | .msg m => m.key.head? = some BatchType ∧ Spec.blockOf m.key = h
  | .block pb => pb.hash = h

/-- No block begins before its parent has come. -/
def Spec.BlocksFollow (root : SentBlock) (tree : List SentBlock) (calls : List Call) : Prop :=
  ∀ l1 c l2, calls = l1 ++ c :: l2 → ∀ s ∈ tree, Spec.Begins s.args.hash c → s = root ∨ ∃ p ∈ tree, p.args.hash = s.args.parentHash ∧ Spec.Arrived l1 p

/-- The calls of several transports, one at a time. -/
inductive Spec.Weave : List (List Call) → List Call → Prop
  | nil {ls} : (∀ l ∈ ls, l = []) → Spec.Weave ls []
  | cons {pre l post c cs} : Spec.Weave (pre ++ l :: post) cs → Spec.Weave (pre ++ (c :: l) :: post) (c :: cs)

open Spec

variable {C : Codec} {env : Env} {o : MapOrder}

theorem Spec.Arrived.mono {a b : List Call} {s : SentBlock} (h : Arrived a s) (hab : ∀ c ∈ a, c ∈ b) : Arrived b s := by
  rcases h with h | ⟨pb, h1, h2⟩
  · refine .inl fun x hx => ?_
    obtain ⟨y, hy, hxy⟩ := h x hx
    exact ⟨y, mem_messagesIn.mpr (hab _ (mem_messagesIn.mp hy)), hxy⟩
  · exact .inr ⟨pb, hab _ h1, h2⟩

/-! ### Several transports -/

theorem Spec.Weave.split {ls : List (List Call)} {cs : List Call} (h : Weave ls cs) : ∀ {l1 c l2}, cs = l1 ++ c :: l2 →
    ∃ l ∈ ls, ∃ a b, l = a ++ c :: b ∧ ∀ x ∈ a, x ∈ l1 := by
  induction h with
  | nil => intro l1 c l2 e; simp at e
  | @cons pre l post d cs _ ih =>
    intro l1 c l2 e
    rcases l1 with _ | ⟨y, l1⟩
    · simp only [List.nil_append, List.cons.injEq] at e
      obtain ⟨rfl, _⟩ := e
      exact ⟨d :: l, by simp, [], l, rfl, by simp⟩
    · simp only [List.cons_append, List.cons.injEq] at e
      obtain ⟨rfl, e⟩ := e
      obtain ⟨k, hk, a, b, e1, e2⟩ := ih e
      rcases List.mem_append.mp hk with hk | hk
      · exact ⟨k, by simp [hk], a, b, e1, fun x hx => by simp [e2 x hx]⟩
      · rcases List.mem_cons.mp hk with rfl | hk
        · refine ⟨d :: k, by simp, d :: a, b, by rw [e1]; rfl, fun x hx => ?_⟩
          rcases List.mem_cons.mp hx with rfl | hx
          · simp
          · simp [e2 x hx]
        · exact ⟨k, by simp [hk], a, b, e1, fun x hx => by simp [e2 x hx]⟩

/-- **C153**: if every transport brings no block before its parent, then all together do not, however their calls are interleaved. -/
theorem C153_transports {root : SentBlock} {tree : List SentBlock} {ls : List (List Call)} {calls : List Call} (hw : Weave ls calls)
    (h : ∀ l ∈ ls, BlocksFollow root tree l) : BlocksFollow root tree calls := by
  intro l1 c l2 e s hs hb
  obtain ⟨l, hl, a, b, e1, e2⟩ := hw.split e
  rcases h l hl a c b e1 s hs hb with hr | ⟨p, hp, e3, ha⟩
  · exact .inl hr
  · exact .inr ⟨p, hp, e3, ha.mono e2⟩

/-! ### The processor -/

section
variable {cfg : Config} {root : SentBlock} {tree : List SentBlock} {calls : List Call}

theorem calls_append {mp0 mp : MP} {a b : List Call} (h : mp0.calls C env (a ++ b) = .ok mp) : ∃ mp1, mp0.calls C env a = .ok mp1 ∧ mp1.calls C env b = .ok mp := by
  unfold MP.calls at h ⊢
  rw [List.foldlM_append] at h
  exact bind_ok.mp h

theorem calls_one {mp0 mp : MP} {c : Call} (h : mp0.calls C env [c] = .ok mp) : mp0.call C env c = .ok mp := by
  unfold MP.calls at h
  rw [List.foldlM_cons] at h
  obtain ⟨mp1, h1, h2⟩ := bind_ok.mp h
  cases h2
  exact h1

theorem calls_tick {mp0 mp : MP} {cs : List Call} (h : mp0.calls C env cs = .ok mp) : mp0.tick ≤ mp.tick := by
  induction cs using snoc_induction generalizing mp with
  | nil => cases h; exact Nat.le_refl _
  | snoc l c ih =>
    obtain ⟨mp1, h1, h2⟩ := calls_append h
    exact Nat.le_trans (ih h1) (call_tick (calls_one h2))

theorem calls_upTo {mp0 mp : MP} {cs : List Call} {T : Nat} (h : mp0.calls C env cs = .ok mp) (hT : mp.tick ≤ T) : mp0.calls C (env.upTo T) cs = .ok mp := by
  induction cs using snoc_induction generalizing mp with
  | nil => exact h
  | snoc l c ih =>
    obtain ⟨mp1, h1, h2⟩ := calls_append h
    have h3 := call_upTo (calls_one h2) hT
    have h4 := ih h1 (Nat.le_trans (call_tick (calls_one h2)) hT)
    unfold MP.calls at h4 ⊢
    rw [List.foldlM_append, h4]
    show ([c].foldlM (MP.call C (env.upTo T)) mp1) = _
    rw [List.foldlM_cons, h3]
    rfl

/-- Pending batches and blocks sent on began in a call. -/
structure BeganInv (cs : List Call) (mp : MP) : Prop where
  base : Base mp
  lift : LiftInv (fun m => .msg m ∈ cs ∧ m.key ≠ []) (fun h _ => ∃ c ∈ cs, Begins h c) (fun _ => True) mp.tracked mp.frp mp.emitted mp
  sent : ∀ pb ∈ mp.emitted, ∃ c ∈ cs, Begins pb.hash c

theorem began_call {cs : List Call} {mp mp' : MP} {c : Call} (hc : c ∈ cs) (hne : ∀ m, c = .msg m → m.key ≠ []) (hi : BeganInv cs mp) (hr : mp.call C env c = .ok mp') : BeganInv cs mp' := by
  cases c with
  | block pb =>
    simp only [MP.call, Except.ok.injEq] at hr
    subst hr
    obtain ⟨pb', next, w, he, e⟩ := complete_eq mp pb
    refine ⟨hi.base.complete pb, ?_, ?_⟩
    · refine LiftInv.rebase (E0 := (mp.processCompleteBatch pb).emitted) ⟨rfl, rfl, trivial, ?_, ?_, [], by simp, by simp⟩
      · rw [he]
        intro x q hq
        simp only [GMap.get?_erase] at hq
        split at hq
        · simp at hq
        · exact hi.lift.pbs x q hq
      · rw [he]; exact hi.lift.queue
    · intro p hp
      obtain ⟨p', e1, e2⟩ := complete_emitted mp pb
      rw [e1] at hp
      rcases List.mem_append.mp hp with hp | hp
      · exact hi.sent p hp
      · rw [List.mem_singleton.mp hp]
        exact ⟨.block pb, hc, by show pb.hash = p'.hash; rw [← e2]⟩
  | msg m =>
    have hL : LiftParts C env true (fun m => .msg m ∈ cs ∧ m.key ≠ []) (fun h _ => ∃ c ∈ cs, Begins h c) (fun _ => True) mp.tracked mp.frp := {
      res := fun _ _ _ _ => trivial
      header := fun mp m b hq _ _ _ ht _ => ⟨.msg m, hq.1, by
        cases hk : m.key with
        | nil => exact absurd hk hq.2
        | cons x l => rw [hk] at ht; simpa using ht, rfl⟩
      subErr := fun _ _ _ h _ _ _ _ => h
      sub := fun _ _ _ _ _ _ h _ _ _ _ _ => h
      apply := fun _ _ _ _ _ h _ _ _ => h
      short := .inl rfl
      subOk := .inl rfl
      applyOk := .inl rfl }
    simp only [MP.call] at hr
    split at hr
    · simp at hr
    · rename_i e
      simp only [Except.ok.injEq] at hr
      subst hr
      have h := ((hL.parts (E0 := mp.emitted)).toParts.process ⟨hc, hne m rfl⟩ ⟨hi.base, hi.lift⟩).ok e
      obtain ⟨es, h1, h2⟩ := h.2.emitted
      refine ⟨h.1, ?_, ?_⟩
      · have := h.2.rebase
        rw [← h.2.tracked, ← h.2.frp] at this
        exact this
      · intro p hp
        rw [h1] at hp
        rcases List.mem_append.mp hp with hp | hp
        · exact hi.sent p hp
        · exact (h2 p hp).1

theorem BeganInv.mono {a b : List Call} {mp : MP} (h : BeganInv a mp) (hab : ∀ c ∈ a, c ∈ b) : BeganInv b mp := by
  refine ⟨h.base, ⟨rfl, rfl, trivial, ?_, ?_, [], by simp, by simp⟩, ?_⟩
  · intro x q hq
    obtain ⟨c, hc, hb⟩ := h.lift.pbs x q hq
    exact ⟨c, hab c hc, hb⟩
  · intro x q e hq he
    have := h.lift.queue x q e hq he
    exact ⟨hab _ this.1, this.2⟩
  · intro p hp
    obtain ⟨c, hc, hb⟩ := h.sent p hp
    exact ⟨c, hab c hc, hb⟩

theorem began_calls {cs : List Call} {mp0 mp : MP} (hn : newMP cfg = .ok mp0) (hne : ∀ m, .msg m ∈ cs → m.key ≠ []) (hr : mp0.calls C env cs = .ok mp) : BeganInv cs mp := by
  induction cs using snoc_induction generalizing mp with
  | nil =>
    cases hr
    have h0 := (LiftInv.newMP (Q := fun m => .msg m ∈ ([] : List Call) ∧ m.key ≠ []) (R := fun h _ => ∃ c ∈ ([] : List Call), Begins h c) (G := fun _ => True) hn trivial)
    obtain ⟨es, h1, h2⟩ := h0.emitted
    have he : mp0.emitted = [] := by
      unfold newMP at hn
      split at hn
      · simp at hn
      · simp only [Except.ok.injEq] at hn; subst hn; rfl
    refine ⟨Base.newMP hn, ⟨rfl, rfl, trivial, h0.pbs, h0.queue, [], by simp, by simp⟩, by simp [he]⟩
  | snoc l c ih =>
    obtain ⟨mp1, h1, h2⟩ := calls_append hr
    have := (ih (fun m hm => hne m (by simp [hm])) h1).mono (b := l ++ [c]) (fun c hc => by simp [hc])
    exact began_call (by simp) (fun m e => hne m (by simp [e])) this (calls_one h2)

theorem Spec.MixedTree.inj (h : MixedTree C cfg root tree calls) : ∀ s s', s ∈ tree → s' ∈ tree → s.args.hash = s'.args.hash → s = s' := by
  intro s s' hs hs' e
  have hd := (List.nodup_cons.mp h.hashes).2
  have h1 := find_hash hd hs
  have h2 := find_hash hd hs'
  rw [e, h2] at h1
  exact (Option.some.inj h1).symm

theorem Spec.MixedTree.part (h : MixedTree C cfg root tree calls) {cs : List Call} (hm : ∀ c ∈ cs, c ∈ calls) : MixedTree C cfg root tree cs :=
  ⟨h.toHeaderTree, h.correct, fun m hc => h.onlyMsgs m (hm _ hc), fun pb hc => h.onlyBlocks pb (hm _ hc)⟩

theorem Spec.MixedTree.types (h : MixedTree C cfg root tree calls) (hC : C.Lawful) : ∀ m, .msg m ∈ calls → m.key.headD 0 ≠ ReorgType ∧ m.key ≠ [] := by
  intro m hm
  obtain ⟨s, hs, hc⟩ := h.onlyMsgs m hm
  exact copy_type hC (h.correct s hs) hc

theorem Spec.MixedTree.emitted (h : MixedTree C cfg root tree calls) (hC : C.Lawful) {cs rest : List Call} (e : calls = cs ++ rest) {mp0 mp : MP}
    (hn : newMP cfg = .ok mp0) (hr : mp0.calls C env cs = .ok mp) : ∀ pb ∈ mp.emitted, ∃ s ∈ tree, AsSent cfg.tracked calls s pb := by
  have hp := h.part (cs := cs) (by rw [e]; intro c hc; simp [hc])
  obtain ⟨mp', h1, h2⟩ := C136_processor (env := env) hC hp.correct h.inj hn hp.onlyMsgs hp.onlyBlocks
  rw [hr] at h1
  cases h1
  intro pb hpb
  obtain ⟨s, hs, ha⟩ := h2 pb hpb
  exact ⟨s, hs, asSent_mono ha (by rw [e]; intro c hc; simp [hc])⟩

theorem Spec.MixedTree.weights (h : MixedTree C cfg root tree calls) : ∀ s ∈ tree, 0 ≤ s.args.weight := fun s hs => (h.correct s hs).2.weight

/-- If no eviction request is acted on before the last call, blocks are sent on after their parents. -/
theorem Spec.MixedTree.order (h : MixedTree C cfg root tree calls) (hC : C.Lawful) (hf : BlocksFollow root tree calls) {mp0 : MP}
    (hn : newMP cfg = .ok mp0) {cs rest : List Call} (hcs : calls = cs ++ rest) {mp : MP} (hr : mp0.calls C env cs = .ok mp)
    (hq : ∀ l1 c l2 mp1, cs = l1 ++ c :: l2 → mp0.calls C env l1 = .ok mp1 → ∀ t, t < mp1.tick → env.evict t = []) :
    ParentsFirst cfg.lastHash mp.emitted := by
  induction cs using snoc_induction generalizing rest mp with
  | nil =>
    cases hr
    have h0 : mp0.emitted = [] := by
      unfold newMP at hn
      split at hn
      · cases hn
      · cases hn; rfl
    intro l1 b l2 e
    rw [h0] at e
    simp at e
  | snoc l c ih =>
    obtain ⟨mp1, hr1, hr2⟩ := calls_append hr
    obtain ⟨es, hes⟩ := calls_emitted (cs := [c]) hr2
    have ih := ih (rest := c :: rest) (by rw [hcs]; simp) hr1 (fun l1 x l2 mp1 e => hq l1 x (l2 ++ [c]) mp1 (by rw [e]; simp))
    have hparent : ∀ b ∈ es, b.hash = cfg.lastHash ∨ ∃ a ∈ mp1.emitted, a.hash = b.parentHash := by
      intro b hb
      have hbm : b ∈ mp.emitted := by rw [← hes]; simp [hb]
      obtain ⟨hd, hmem, hbeg⟩ := (began_calls hn (fun m hm => (h.types hC m (by rw [hcs]; exact List.mem_append_left _ hm)).2) hr).sent b hbm
      obtain ⟨s, hs, ha⟩ := h.emitted hC hcs hn hr b hbm
      have he := asSent_head ha
      obtain ⟨a, d, e⟩ := List.append_of_mem hmem
      rcases hf a hd (d ++ rest) (by rw [hcs, e]; simp) s hs (he.hash ▸ hbeg) with hroot | ⟨p, hp, e1, hall⟩
      · left; rw [he.hash, hroot, h.hash]
      · right
        have hsub : ∀ x ∈ a, x ∈ l := by
          intro x hx
          rcases List.append_eq_append_iff.mp e with ⟨u, hu1, hu2⟩ | ⟨u, hu1, hu2⟩
          · rcases u with _ | ⟨y, u⟩
            · simp at hu1; rw [← hu1]; exact hx
            · simp at hu2
          · rw [hu1]; simp [hx]
        have hk : Keeps (env.upTo mp1.tick) p.args.number := by
          intro t n hn'
          unfold Env.upTo at hn'
          simp only [] at hn'
          split at hn'
          · rename_i ht
            rw [hq l c [] mp1 rfl hr1 t ht] at hn'
            simp at hn'
          · simp at hn'
        obtain ⟨pb, hpb, hex⟩ := C136_delivered hC h.correct h.inj hn (fun m hm => h.onlyMsgs m (by rw [hcs]; simp [hm])) hp hk (hall.mono hsub)
          (calls_upTo hr1 (Nat.le_refl _))
        exact ⟨pb, hpb, by rw [hex, e1, he.parent]⟩
    intro l1 b l2 e
    rw [← hes] at e
    rcases List.append_eq_append_iff.mp e with ⟨u, hu1, hu2⟩ | ⟨u, hu1, hu2⟩
    · rcases hparent b (by rw [hu2]; simp) with e | ⟨a, ha, e⟩
      · exact .inl e
      · exact .inr ⟨a, by rw [hu1]; simp [ha], e⟩
    · rcases u with _ | ⟨y, u⟩
      · simp at hu2
        rcases hparent b (by rw [← hu2]; simp) with e | ⟨a, ha, e⟩
        · exact .inl e
        · exact .inr ⟨a, by rw [hu1] at ha; simpa using ha, e⟩
      · simp at hu2
        obtain ⟨rfl, _⟩ := hu2
        exact ih l1 b u hu1

/-! ### The whole consumer -/

theorem Spec.HeaderTree.handled (h : HeaderTree cfg root tree) (hw0 : ∀ s ∈ tree, 0 ≤ s.args.weight) (hwin : (tree.length : Int) ≤ 2 * cfg.reorgThreshold) {omp0 omp : OMP}
    (ho : newOMP cfg = .ok omp0) {ds : List PB} (hds : ∀ pb ∈ ds, ∃ s ∈ tree, HeadOf s pb)
    (hpf : ParentsFirst cfg.lastHash ds) (hr : omp0.run o (ds.map OOp.block) = .ok omp) :
    (∀ n, OOut.evictOlder n ∉ omp.log) ∧ (ds ≠ [] → FirstHeaviest ds omp.lastHash) := by
  obtain ⟨s', g1, g2⟩ := parents_first_run (o := o) (U := tree.map (·.args.hash)) h.rootHash h.rootWeight (fun b hb => (h.world hw0 (hds b hb)).1)
    (fun b hb => (h.world hw0 (hds b hb)).2.1) (fun b hb => (h.world hw0 (hds b hb)).2.2.1) (by simpa using hwin) h.inU
    (fun b hb => (h.world hw0 (hds b hb)).2.2.2.2) (fun b hb => (h.world hw0 (hds b hb)).2.2.2.1) hpf ho
  rw [hr] at g1
  cases g1
  exact ⟨g2.calm, fun hne => g2.head.resolve_left (fun e => hne e.1)⟩

/-- In the calls before the last one no request was acted on. -/
def UndisturbedCalls (C : Codec) (env : Env) (cfg : Config) (calls : List Call) : Prop :=
  ∀ mp0, newMP cfg = .ok mp0 → ∀ l1 c l2 mp1, calls = l1 ++ c :: l2 → mp0.calls C env l1 = .ok mp1 → ∀ t, t < mp1.tick → env.evict t = []

theorem Spec.MixedTree.consequences (h : MixedTree C cfg root tree calls) (hC : C.Lawful) (hwin : (tree.length : Int) ≤ 2 * cfg.reorgThreshold)
    (hf : BlocksFollow root tree calls) {s0 s : Sys} (hst : Sys.start cfg calls = .ok s0) (hs : Sys.Steps C env o s0 s) (key : UndisturbedCalls C env cfg s.calls) :
    ParentsFirst cfg.lastHash s.mp.emitted ∧ (∀ n, OOut.evictOlder n ∉ s.omp.log) ∧
      (blocksOf s.ops ≠ [] → FirstHeaviest (blocksOf s.ops) s.omp.lastHash) := by
  obtain ⟨mp0, omp0, ds, hn, ho, h1, h3, h4, h5, h6⟩ := mixed_inside (fun m hm => (h.types hC m hm).1) hst hs
  have hpf := h.order hC hf hn h1 h3 (key mp0 hn)
  have hds : blocksOf s.ops = ds := by rw [h4, blocksOf_map]
  refine ⟨hpf, ?_⟩
  rw [hds]
  refine h.toHeaderTree.handled h.weights hwin ho ?_ (parentsFirst_prefix (by rw [h6] at hpf; exact hpf)) h5
  intro pb hpb
  obtain ⟨s', hs', ha⟩ := h.emitted hC h1 hn h3 pb (by rw [h6]; simp [hpb])
  exact ⟨s', hs', asSent_head ha⟩

/-- What holds in every state: blocks were sent on after their parents, and no request was sent. -/
theorem Spec.MixedTree.inside (h : MixedTree C cfg root tree calls) (hC : C.Lawful) (hwin : (tree.length : Int) ≤ 2 * cfg.reorgThreshold)
    (hf : BlocksFollow root tree calls) {s0 s : Sys} (hst : Sys.start cfg calls = .ok s0) (hs : CausalSteps C env o s0 s) :
    ParentsFirst cfg.lastHash s.mp.emitted ∧ (∀ n, OOut.evictOlder n ∉ s.omp.log) ∧
      (blocksOf s.ops ≠ [] → FirstHeaviest (blocksOf s.ops) s.omp.lastHash) := by
  refine h.consequences hC hwin hf hst hs.steps ?_
  induction hs with
  | refl =>
    intro mp0 _ l1 c l2 mp1 e
    have : s0.calls = [] := by
      unfold Sys.start at hst
      obtain ⟨mp, _, hst⟩ := bind_ok.mp hst
      obtain ⟨omp, _, hst⟩ := bind_ok.mp hst
      cases hst; rfl
    rw [this] at e
    simp at e
  | step hs hstep hheard ih =>
    rename_i s1 s2
    cases hstep with
    | call ht hout hc =>
      rename_i c cs mp
      have hc1 := (h.consequences hC hwin hf hst hs.steps ih).2.1
      have hh := hheard (by simp)
      obtain ⟨mp0', omp0, ds, hn', ho, h1, h3, h4, h5, h6⟩ := mixed_inside (fun m hm => (h.types hC m hm).1) hst hs.steps
      intro mp0 hn l1 d l2 mp1 e hr t htick
      rw [hn'] at hn
      cases hn
      have e : s1.calls ++ [c] = l1 ++ d :: l2 := e
      rcases l2 with _ | ⟨y, l2⟩
      · have := List.append_inj_left' e rfl
        subst this
        rw [h3] at hr
        cases hr
        cases hev : env.evict t with
        | nil => rfl
        | cons n rest => exact (hc1 n (hh t htick n (by rw [hev]; simp))).elim
      · obtain ⟨l3, z, e3⟩ : ∃ l3 z, y :: l2 = l3 ++ [z] := ⟨(y :: l2).dropLast, (y :: l2).getLast (List.cons_ne_nil _ _), (List.dropLast_concat_getLast (List.cons_ne_nil _ _)).symm⟩
        rw [e3] at e
        have e : s1.calls ++ [c] = (l1 ++ d :: l3) ++ [z] := by rw [e]; simp
        exact ih mp0' hn' l1 d l3 mp1 (List.append_inj_left' e rfl) hr t htick
    | sendBlock h1 h2 => exact ih
    | sendReorg h1 h2 => exact ih
    | sendWaiter h1 => exact ih
    | block h1 h2 => exact ih
    | reorg h1 h2 => exact ih

/-- **C153**, while running: at every moment the head of the subscribers is the first-handled block of maximal weight among those handled, and
nothing was asked to be dropped. -/
theorem C153_head (h : MixedTree C cfg root tree calls) (hC : C.Lawful) (hwin : (tree.length : Int) ≤ 2 * cfg.reorgThreshold)
    (hf : BlocksFollow root tree calls) {s0 s : Sys} (hst : Sys.start cfg calls = .ok s0) (hs : CausalSteps C env o s0 s) (hne : blocksOf s.ops ≠ []) :
    FirstHeaviest (blocksOf s.ops) s.omp.lastHash ∧ (∀ n, OOut.evictOlder n ∉ s.omp.log) :=
  ⟨(h.inside hC hwin hf hst hs).2.2 hne, (h.inside hC hwin hf hst hs).2.1⟩

/-- **C153**, at the end: when every block has come, over whichever transports, and everything has been handled, the subscribers hold a chain of blocks as they were produced
or handed over that ends in a block of maximal weight of the whole tree. -/
theorem C153_end (h : MixedTree C cfg root tree calls) (hC : C.Lawful) (hwin : (tree.length : Int) ≤ 2 * cfg.reorgThreshold)
    (hf : BlocksFollow root tree calls) (ha : ∀ s ∈ tree, Arrived calls s) {s0 s : Sys}
    (hst : Sys.start cfg calls = .ok s0) (hs : CausalSteps C env o s0 s) (hd : s.Drained) (hg : Heard env s) :
    ∃ base chain top, Replays cfg.lastHash s.omp.log base chain ∧ Linked base chain ∧ endOf base chain = top.args.hash ∧
      top ∈ tree ∧ (∀ sb ∈ tree, sb.args.weight ≤ top.args.weight) ∧
      ∀ b ∈ chain, ∃ sb ∈ tree, AsSent cfg.tracked calls sb b := by
  have hin := h.inside hC hwin hf hst hs
  obtain ⟨mp0, omp0, ds, hn, ho, h1, h3, h4, h5, h6⟩ := mixed_inside (fun m hm => (h.types hC m hm).1) hst hs.steps
  have hem := h.emitted hC h1 hn h3
  rw [hd.1, List.append_nil] at h1
  rw [← h1] at h3
  rw [hd.2.1, hd.2.2.1] at h6
  have h6 : s.mp.emitted = ds := by simpa [blocksSent] using h6
  have hds : blocksOf s.ops = ds := by rw [h4, blocksOf_map]
  have hex : ∀ pb ∈ ds, ∃ s ∈ tree, HeadOf s pb := fun pb hpb => by
    obtain ⟨s', hs', hx⟩ := hem pb (by rw [h6]; exact hpb)
    exact ⟨s', hs', asSent_head hx⟩
  have hk : ∀ n, Keeps (env.upTo s.mp.tick) n := by
    intro n t x hx
    unfold Env.upTo at hx
    simp only [] at hx
    split at hx
    · rename_i ht
      exact (hin.2.1 x (hg t ht x hx)).elim
    · simp at hx
  have hall : ∀ sb ∈ tree, ∃ pb ∈ ds, HeadOf sb pb := by
    intro sb hsb
    obtain ⟨pb, hpb, he⟩ := C136_delivered hC h.correct h.inj hn h.onlyMsgs hsb (hk _) (ha sb hsb) (calls_upTo h3 (Nat.le_refl _))
    rw [h6] at hpb
    obtain ⟨sb', hsb', hx⟩ := hex pb hpb
    have := h.inj _ _ hsb' hsb (hx.hash.symm.trans he)
    subst this
    exact ⟨pb, hpb, hx⟩
  have hne : blocksOf s.ops ≠ [] := by
    obtain ⟨pb, hpb, _⟩ := hall root h.mem
    rw [hds]
    intro e
    rw [e] at hpb
    simp at hpb
  obtain ⟨l1, b, l2, e, e1, e2, _⟩ := hin.2.2 hne
  rw [hds] at e e2
  obtain ⟨top, htop, hx⟩ := hex b (by rw [e]; simp)
  obtain ⟨base, chain, g1, g2, g3⟩ := C28_continuous (o := o) (W := treeWorld root tree) (ops := ds.map OOp.block) (s0 := omp0) h.rootHash
    (by rw [blocksOf_map]; exact fun b hb => (h.toHeaderTree.world h.weights (hex b hb)).1) ho h5
  refine ⟨base, chain, top, g1, g2, by rw [g3, ← e1, hx.hash], htop, ?_, ?_⟩
  · intro sb hsb
    obtain ⟨pb, hpb, he⟩ := hall sb hsb
    have := e2 pb hpb
    have h8 := he.weight
    have h9 := hx.weight
    omega
  · intro x hx
    obtain ⟨a, r, k1, k2⟩ := replays_sent g1 x hx
    exact hem x (C43_updates hst hs.steps k1 (List.mem_append_left _ k2))

/-- **C153**, the contents: a consumer that tracks everything gives its subscribers every block exactly as produced, whichever transport brought it. (For others see
`C136_filter_refuted`.) -/
theorem C153_exact {sb : SentBlock} {b : PB} (h : MixedTree C cfg root tree calls) (ht : ∀ k, cfg.tracked k = true)
    (hw : ∀ pb, .block pb ∈ calls → ∃ s ∈ tree, WsSeen s.args s.subs pb) (hsb : sb ∈ tree) (hb : AsSent cfg.tracked calls sb b) : Exact cfg.tracked sb.schema sb.args sb.subs b := by
  rcases hb with he | ⟨pb0, h1, h2, e⟩
  · exact he
  · obtain ⟨s', hs', hws⟩ := hw pb0 h1
    have : s' = sb := h.inj _ _ hs' hsb (hws.hash.symm.trans h2.hash)
    subst this
    rw [← e] at hws
    exact exact_of_wsSeen ht ⟨hws.number, hws.weight, hws.hash, hws.parent, hws.values, hws.deletes⟩

/-- **C153**, no faults: whatever the order of the calls, no goroutine is ever about to fault, and every execution can be completed. -/
theorem C153_no_fault (h : MixedTree C cfg root tree calls) (hC : C.Lawful) (hwin : (tree.length : Int) ≤ 2 * cfg.reorgThreshold)
    {s0 s : Sys} (hst : Sys.start cfg calls = .ok s0) (hs : Sys.Steps C env o s0 s) :
    ¬ Faulty C env o s ∧ ∃ s', Sys.Steps C env o s s' ∧ s'.Drained := by
  have key : ∀ s, Sys.Steps C env o s0 s → ¬ Faulty C env o s := by
    intro s hs
    obtain ⟨mp0, omp0, ds, hn, ho, h1, h3, h4, h5, h6⟩ := mixed_inside (fun m hm => (h.types hC m hm).1) hst hs
    rintro (⟨c, cs, f, ht, hf⟩ | ⟨pb, r, f, ht, hf⟩)
    · have hp := h.part (cs := s.calls ++ [c]) (by
        rw [h1, ht]; intro x hx
        rcases List.mem_append.mp hx with hx | hx
        · simp [hx]
        · simp [List.mem_singleton.mp hx])
      obtain ⟨mp', hr, _⟩ := C136_processor (env := env) hC hp.correct h.inj hn hp.onlyMsgs hp.onlyBlocks
      obtain ⟨mp1, g1, g2⟩ := calls_append hr
      rw [h3] at g1
      cases g1
      have := calls_one g2
      rw [hf] at this
      cases this
    · have hex : ∀ x ∈ ds ++ [pb], ∃ s ∈ tree, HeadOf s x := by
        intro x hx
        obtain ⟨s', hs', ha⟩ := h.emitted hC h1 hn h3 x (by
          rw [h6, ht]
          rcases List.mem_append.mp hx with hx | hx
          · simp [hx]
          · simp [List.mem_singleton.mp hx])
        exact ⟨s', hs', asSent_head ha⟩
      obtain ⟨s', g1⟩ := C35_partial (o := o) (bs := ds ++ [pb]) h.rootHash h.rootWeight (fun b hb => (h.toHeaderTree.world h.weights (hex b hb)).1)
        (fun b hb => (h.toHeaderTree.world h.weights (hex b hb)).2.1) (fun b hb => (h.toHeaderTree.world h.weights (hex b hb)).2.2.1)
        ⟨tree.map (·.args.hash), by simpa using hwin, h.inU, fun b hb => (h.toHeaderTree.world h.weights (hex b hb)).2.2.2.2⟩ ho
      rw [List.map_append] at g1
      unfold OMP.run at g1 h5
      rw [List.foldlM_append, h5] at g1
      have g1 : (([pb].map OOp.block).foldlM (OMP.op o) s.omp) = .ok s' := g1
      rw [List.map_cons, List.foldlM_cons] at g1
      rw [show OMP.op o s.omp (.block pb) = .error f from hf] at g1
      simp [bind, Except.bind] at g1
  refine ⟨key s hs, ?_⟩
  obtain ⟨s', h1, h2⟩ := s.drains (C := C) (env := env) (o := o) ((Piped.start (C := C) (env := env) (o := o) hst).steps hs).room
  exact ⟨s', h1, h2.resolve_right (key s' (steps_trans hs h1))⟩

end

/-! ## Examples -/

theorem Spec.Weave.take {pre post : List (List Call)} {l cs : List Call} (h : Weave (pre ++ l :: post) cs) : ∀ a, Weave (pre ++ (a ++ l) :: post) (a ++ cs)
  | [] => h
  | _ :: a => .cons (h.take a)

/-- C153: a message transport brings the last processed block and a block on it; a transport of whole blocks brings the last processed block and a
heavier fork. Interleaved, the subscribers end at the fork. -/
example : ∃ root tree ls calls, (tree.length = 3 ∧ ls.length = 2 ∧ (∃ m, .msg m ∈ calls) ∧ ∃ pb, .block pb ∈ calls) ∧ Weave ls calls ∧
    (∀ l ∈ ls, BlocksFollow root tree l) ∧ MixedTree Avro.codec exForkCfg root tree calls ∧
    (tree.length : Int) ≤ 2 * exForkCfg.reorgThreshold ∧ (∀ s ∈ tree, Arrived calls s) ∧
    ∃ s0 s base chain, Sys.start exForkCfg calls = .ok s0 ∧ CausalSteps Avro.codec exEnv .plain s0 s ∧ s.Drained ∧ Heard exEnv s ∧
      Replays exForkCfg.lastHash s.omp.log base chain ∧ endOf base chain = exForkBlock.hash := by
  obtain ⟨m1, h1⟩ := exBlock_produced
  obtain ⟨p', tm, h⟩ := exNext_ok
  obtain ⟨m2, h2⟩ := produced_exists h exSubs
  obtain ⟨p', tm, h⟩ := exForkBlock_ok
  obtain ⟨m3, h3⟩ := produced_exists h exSubs
  let root : SentBlock := ⟨exProducer.schema, exBlock, exSubs, m1⟩
  let tree : List SentBlock := [root, ⟨exProducer.schema, exNext, exSubs, m2⟩, ⟨exProducer.schema, exForkBlock, exSubs, m3⟩]
  have hmem : ∀ s, s ∈ tree ↔ s = root ∨ s = ⟨exProducer.schema, exNext, exSubs, m2⟩ ∨ s = ⟨exProducer.schema, exForkBlock, exSubs, m3⟩ := by
    intro s; simp [tree]
  have hcorrect : ∀ s ∈ tree, s.Correct Avro.codec := by
    intro s hs
    rcases (hmem s).mp hs with rfl | rfl | rfl
    · exact ⟨h1, exBlock_wf⟩
    · exact ⟨h2, exNext_wf⟩
    · exact ⟨h3, exForkBlock_wf⟩
  let A : List Call := (recv m1).map Call.msg
  let B : List Call := (recv m2).map Call.msg
  have hW : Weave [A ++ B, [.block (exHanded exBlock), .block (exHanded exForkBlock)]] (A ++ ([.block (exHanded exBlock), .block (exHanded exForkBlock)] ++ B)) := by
    refine Weave.take (pre := []) ?_ A
    refine Weave.take (pre := [B]) (post := []) (l := []) ?_ [.block (exHanded exBlock), .block (exHanded exForkBlock)]
    have := Weave.take (pre := []) (post := [[]]) (l := []) (cs := []) (.nil (by simp)) B
    simpa using this
  have hT : MixedTree Avro.codec exForkCfg root tree (A ++ ([.block (exHanded exBlock), .block (exHanded exForkBlock)] ++ B)) := by
    refine ⟨⟨by simp [tree], rfl, rfl, show (0 : Int) < 300 by decide, ?_, ?_, ?_, ?_⟩, hcorrect, ?_, ?_⟩
    · show exHash 2 ∉ [exHash 1, exHash 3, exHash 5]
      decide
    · intro s hs
      rcases (hmem s).mp hs with rfl | rfl | rfl
      · exact .inl rfl
      · exact .inr ⟨root, by simp [tree], rfl, rfl, show (300 : Int) < 310 by decide⟩
      · exact .inr ⟨root, by simp [tree], rfl, rfl, show (300 : Int) < 320 by decide⟩
    · show [Hash.zero, exHash 1, exHash 3, exHash 5].Nodup
      decide
    · intro s _ x hx
      simp [exForkCfg, exCfg] at hx
    · intro m hm
      have : m ∈ recv m1 ∨ m ∈ recv m2 := by simpa [A, B] using hm
      rcases this with hm | hm
      · exact ⟨_, (hmem _).mpr (.inl rfl), recv_copy (ms := m1) (fun _ h => h) hm⟩
      · exact ⟨_, (hmem _).mpr (.inr (.inl rfl)), recv_copy (ms := m2) (fun _ h => h) hm⟩
    · intro pb hm
      have : pb = exHanded exBlock ∨ pb = exHanded exForkBlock := by simpa [A, B] using hm
      rcases this with rfl | rfl
      · exact ⟨_, (hmem _).mpr (.inl rfl), ⟨rfl, rfl, rfl, rfl⟩⟩
      · exact ⟨_, (hmem _).mpr (.inr (.inr rfl)), ⟨rfl, rfl, rfl, rfl⟩⟩
  have hF : ∀ l ∈ [A ++ B, [.block (exHanded exBlock), .block (exHanded exForkBlock)]], BlocksFollow root tree l := by
    intro l hl l1 c l2 e s hs hb
    by_cases hr : s = root
    · exact .inl hr
    refine .inr ⟨root, by simp [tree], ?_, ?_⟩
    · rcases (hmem s).mp hs with rfl | rfl | rfl
      · exact (hr rfl).elim
      · rfl
      · rfl
    · have hne : s.args.hash ≠ exBlock.hash := fun e => hr (hT.inj _ _ hs (by simp [tree]) e)
      have hl : l = A ++ B ∨ l = [.block (exHanded exBlock), .block (exHanded exForkBlock)] := by simpa using hl
      rcases hl with rfl | rfl
      · have hno : c ∉ A := by
          intro hc
          obtain ⟨m, hm, rfl⟩ := List.mem_map.mp hc
          have := copy_hash Avro.codec_lawful (hcorrect root (by simp [tree])) (recv_copy (ms := m1) (fun _ h => h) hm)
          exact hne (hb.2.symm.trans this)
        have hpre : ∀ x ∈ A, x ∈ l1 := by
          rcases List.append_eq_append_iff.mp e with ⟨u, hu1, hu2⟩ | ⟨u, hu1, hu2⟩
          · intro x hx; rw [hu1]; simp [hx]
          · rcases u with _ | ⟨y, u⟩
            · rw [hu1]; simp
            · simp at hu2
              exact (hno (by rw [hu1, ← hu2.1]; simp)).elim
        refine .inl fun x hx => ?_
        obtain ⟨y, hy, hxy⟩ := recv_all m1 x hx
        exact ⟨y, mem_messagesIn.mpr (hpre _ (List.mem_map.mpr ⟨y, hy, rfl⟩)), hxy⟩
      · refine .inr ⟨exHanded exBlock, ?_, rfl⟩
        rcases l1 with _ | ⟨y, l1⟩
        · simp only [List.nil_append, List.cons.injEq] at e
          rw [← e.1] at hb
          exact (hne hb.symm).elim
        · simp only [List.cons_append, List.cons.injEq] at e
          rw [← e.1]; simp
  have hA : ∀ s ∈ tree, Arrived (A ++ ([.block (exHanded exBlock), .block (exHanded exForkBlock)] ++ B)) s := by
    intro s hs
    rcases (hmem s).mp hs with rfl | rfl | rfl
    · exact .inr ⟨exHanded exBlock, by simp, rfl⟩
    · refine .inl fun x hx => ?_
      obtain ⟨y, hy, hxy⟩ := recv_all m2 x hx
      exact ⟨y, mem_messagesIn.mpr (by simp [B, hy]), hxy⟩
    · exact .inr ⟨exHanded exForkBlock, by simp, rfl⟩
  have hw : (tree.length : Int) ≤ 2 * exForkCfg.reorgThreshold := by show (3 : Int) ≤ 2 * 2; decide
  obtain ⟨s0, hst⟩ : ∃ s0, Sys.start exForkCfg (A ++ ([.block (exHanded exBlock), .block (exHanded exForkBlock)] ++ B)) = .ok s0 := ⟨_, rfl⟩
  obtain ⟨s, hs, hd⟩ := (C153_no_fault (env := exEnv) (o := .plain) hT Avro.codec_lawful hw hst .refl).2
  have hcs := causal_of_none (fun _ => rfl) hs
  have hh : Heard exEnv s := fun t _ n hn => by simp [exEnv] at hn
  have hm : ∃ m, Call.msg m ∈ A := by
    obtain ⟨x, hx⟩ := List.exists_mem_of_ne_nil _ h1.1
    obtain ⟨y, hy, _⟩ := recv_all m1 x hx
    exact ⟨y, List.mem_map.mpr ⟨y, hy, rfl⟩⟩
  obtain ⟨base, chain, top, g1, g2, g3, g4, g5, g6⟩ := C153_end hT Avro.codec_lawful hw (C153_transports hW hF) hA hst hcs hd hh
  refine ⟨root, tree, _, _, ⟨rfl, rfl, ?_, ⟨exHanded exBlock, by simp⟩⟩, hW, hF, hT, hw, hA, s0, s, base, chain, hst, hcs, hd, hh, g1, ?_⟩
  · obtain ⟨m, hm⟩ := hm
    exact ⟨m, by simp [hm]⟩
  rw [g3]
  have h320 := g5 ⟨exProducer.schema, exForkBlock, exSubs, m3⟩ (by simp [tree])
  rcases (hmem top).mp g4 with rfl | rfl | rfl
  · exact absurd h320 (show ¬ (320 : Int) ≤ 300 by decide)
  · exact absurd h320 (show ¬ (320 : Int) ≤ 310 by decide)
  · rfl

/-- C153, the contents: a block handed over as a websocket does is as produced for a consumer that tracks everything. -/
example : WsSeen exNext exSubs (exHanded exNext) ∧ ∀ k, exForkCfg.tracked k = true := ⟨exHanded_seen.2.1, fun _ => rfl⟩

end Verif
