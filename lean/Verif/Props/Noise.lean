import Verif.Props.Forks
import Verif.Props.Moment
/-!
# C160: what else is in the topics
C86 assumes that only messages of the blocks of the tree are received. Here other messages arrive as well: messages of blocks that never become
complete (their producer stopped, or some of their messages are not there any more), parts of blocks whose headers are not there (any more, or in a
form that can be decoded) and messages without content.
-/
namespace Verif
open Spec

variable {C : Codec} {env : Env} {o : MapOrder}

/-- The message is neither a notification of a reorg nor a part of one of the blocks, nor does it begin another block. -/
structure Spec.Noise (C : Codec) (blocks : List SentBlock) (m : RMsg) : Prop where
  /-- the key is long enough for the hash of a block (delivery/consumer.go:287) -/
  len : 33 ≤ m.key.length
  /-- it does not announce a reorg -/
  notReorg : m.key.head? ≠ some ReorgType
  /-- no content, or content of another block -/
  other : NoContent m ∨ blockOf m.key ∉ blocks.map (·.args.hash)
  /-- it does not begin a block -/
  noHeader : m.key.head? = some BatchType → C.decBatch m.value = none

/-- The block lacks a message the consumer waits for. -/
def Spec.NeverWhole (tracked : GoStr → Bool) (s : SentBlock) (there : RMsg → Prop) : Prop :=
  ∃ x ∈ s.msgs, Matters tracked s.schema s.args x.key ∧ ∀ m, there m → m.key ≠ x.key

/-- The messages of correctly produced blocks, messages of other blocks that are not all there, and others. -/
structure Spec.NoisySupply (C : Codec) (cfg : Config) (tree broken : List SentBlock) (received : List RMsg) : Prop where
  /-- produced by successful `AddBlock` and `SendBatch` calls -/
  correct : ∀ s ∈ tree ++ broken, s.Correct C
  /-- hashes do not collide -/
  apart : ((tree ++ broken).map (·.args.hash)).Nodup
  /-- some messages of the others do not arrive -/
  lacks : ∀ s ∈ broken, NeverWhole cfg.tracked s (· ∈ received)
  /-- messages of these blocks are received, and others that begin no block -/
  only : ∀ m ∈ received, (∃ s ∈ tree ++ broken, Copy s.msgs m) ∨ Noise C (tree ++ broken) m

/-- The blocks are a tree above the last processed block. -/
structure Spec.NoisyTree (C : Codec) (cfg : Config) (root : SentBlock) (tree broken : List SentBlock) (received : List RMsg) : Prop
    extends HeaderTree cfg root tree, NoisySupply C cfg tree broken received

/-- The blocks are a chain on the last processed block, which has number `n`. -/
structure Spec.NoisyChain (C : Codec) (cfg : Config) (n : Int) (chain broken : List SentBlock) (received : List RMsg) : Prop
    extends NoisySupply C cfg chain broken received where
  links : ChainOf cfg.lastHash n cfg.lastWeight chain
  /-- hashes do not collide -/
  hashes : (Hash.zero :: cfg.lastHash :: chain.map (·.args.hash)).Nodup
  /-- the whitelist does not forbid them -/
  whitelist : ∀ s ∈ chain, ∀ h, cfg.whitelist.get? (heightKey s.args.number) = some h → h = s.args.hash

theorem Spec.Noise.headD {blocks : List SentBlock} {m : RMsg} (h : Noise C blocks m) : m.key.head? = some (m.key.headD 0) :=
  head_of_headD h.len rfl

/-- With no block for the other hashes, nothing faults. -/
theorem Blk.liftNoise {tracked : GoStr → Bool} {frp : Bool} (hC : C.Lawful) (F : Hash → Option Blk) (hF : ∀ h B, F h = some B → B.WF ∧ B.hash = h) :
    LiftParts C env false
      (fun m => ¬ m.key.length < 33 ∧ (∀ B, F (hashOf m.key) = some B → Blk.Own C B m) ∧
        (F (hashOf m.key) = none → m.key.headD 0 = BatchType → C.decBatch m.value = none))
      (fun h pb => ∃ B, F h = some B ∧ Blk.Inv C B tracked pb) (fun _ => True) tracked frp where
  res _ _ _ _ := trivial
  header mp m b hq ht _ _ hty hd := by
    cases hB : F (hashOf m.key) with
    | none => rw [hq.2.2 hB hty] at hd; cases hd
    | some B =>
      refine ⟨B, rfl, ?_⟩
      obtain ⟨h1, b', h2, hl⟩ := (hq.2.1 B hB).header hty
      rw [hd] at h2; cases h2
      obtain ⟨hw, hh⟩ := hF _ _ hB
      rw [← ht, ← hh]
      exact Blk.Inv.header hw hl env mp m
  subErr m pb hq hR _ ht _ hd := by
    obtain ⟨B, hB, hR⟩ := hR
    obtain ⟨id, _, _, h, _⟩ := (hq.2.1 B hB).subHeader ht
    rw [hd] at h; simp at h
  sub t m pb pb' n hq hR _ ht hc hn hok := by
    obtain ⟨B, hB, hR⟩ := hR
    obtain ⟨hw, hh⟩ := hF _ _ hB
    obtain ⟨id, h1, h2, h3, h4⟩ := (hq.2.1 B hB).subHeader ht
    rw [hn] at h3; cases h3
    rw [h4] at hok hc
    obtain ⟨pb2, a1, a2, _⟩ := hR.addSub hC hw (env := env) (t := t) m hc
    rw [a1] at hok; cases hok; exact ⟨B, hB, a2⟩
  apply m pb pb' r hq hR hqt ht hok := by
    obtain ⟨B, hB, hR⟩ := hR
    obtain ⟨hw, hh⟩ := hF _ _ hB
    rcases (hq.2.1 B hB).other hqt ht with ⟨i, h1, h2, h3⟩ | ⟨h1, h2⟩
    · obtain ⟨pb2, b, a1, a2, _⟩ := hR.apply hC hw h1 h2 h3
      rw [a1] at hok; cases hok; exact ⟨B, hB, a2⟩
    · obtain ⟨pb2, a1, a2, _⟩ := hR.applyOther h1 h2
      rw [a1] at hok; cases hok; exact ⟨B, hB, a2⟩
  short := .inr fun m hq => hq.1
  subOk := by
    right; intro t m pb n hq hR _ ht hc hn
    obtain ⟨B, hB, hR⟩ := hR
    obtain ⟨hw, hh⟩ := hF _ _ hB
    obtain ⟨id, h1, h2, h3, h4⟩ := (hq.2.1 B hB).subHeader ht
    rw [hn] at h3; cases h3
    rw [h4] at hc ⊢
    obtain ⟨pb2, a1, _⟩ := hR.addSub hC hw (env := env) (t := t) m hc
    exact ⟨pb2, a1⟩
  applyOk := by
    right; intro m pb hq hR hqt ht
    obtain ⟨B, hB, hR⟩ := hR
    obtain ⟨hw, hh⟩ := hF _ _ hB
    rcases (hq.2.1 B hB).other hqt ht with ⟨i, h1, h2, h3⟩ | ⟨h1, h2⟩
    · obtain ⟨pb2, b, a1, _⟩ := hR.apply hC hw h1 h2 h3
      exact ⟨pb2, b, a1⟩
    · obtain ⟨pb2, a1, _⟩ := hR.applyOther h1 h2
      exact ⟨pb2, true, a1⟩

section
variable {cfg : Config} {n : Int} {root : SentBlock} {tree chain broken : List SentBlock} {received : List RMsg}

theorem Spec.NoisySupply.inj (h : NoisySupply C cfg tree broken received) :
    ∀ s s', s ∈ tree ++ broken → s' ∈ tree ++ broken → s.args.hash = s'.args.hash → s = s' := by
  intro s s' hs hs' e
  have h1 := find_hash h.apart hs
  rw [e, find_hash h.apart hs'] at h1
  exact (Option.some.inj h1).symm

theorem Spec.NoisySupply.tc (h : NoisySupply C cfg tree broken received) {s : SentBlock} (hs : s ∈ tree) : s.Correct C :=
  h.correct s (List.mem_append_left _ hs)

/-- Of each of the blocks only its own messages arrive. -/
theorem Spec.NoisySupply.faithful (h : NoisySupply C cfg tree broken received) (hC : C.Lawful) {ms : List RMsg} (hms : ∀ m ∈ ms, m ∈ received)
    {s : SentBlock} (hs : s ∈ tree ++ broken) : Faithful s.args.hash s.msgs ms := by
  intro m hm hh
  rcases h.only m (hms m hm) with ⟨s', h1, h2⟩ | hN
  · have := h.inj s' s h1 hs ((copy_hash hC (h.correct s' h1) h2).symm.trans hh)
    subst this; exact .inl h2
  · rcases hN.other with h1 | h1
    · exact .inr h1
    · exact (h1 (hh ▸ List.mem_map.mpr ⟨s, hs, rfl⟩)).elim

/-- **C160**, the message processor: it works through all messages. -/
theorem C160_total (h : NoisySupply C cfg tree broken received) (hC : C.Lawful) {mp : MP} (hn : newMP cfg = .ok mp) {ms : List RMsg}
    (hms : ∀ m ∈ ms, m ∈ received) : ∃ mp', mp.run C env ms = .ok mp' := by
  classical
  have hex : ∀ x, ∃ B : Option Blk, (∀ b, B = some b → b.WF ∧ b.hash = x ∧ ∀ m ∈ ms, hashOf m.key = x → Blk.Own C b m) ∧
      (B = none → x ∉ (tree ++ broken).map (·.args.hash)) := by
    intro x
    by_cases hs : ∃ s ∈ tree ++ broken, s.args.hash = x
    · obtain ⟨s, h1, rfl⟩ := hs
      obtain ⟨b, hbr⟩ := bridge hC (h.correct s h1).1 (h.correct s h1).2
      refine ⟨some (blkOf s.schema s.args s.subs b), fun b hb => ?_, fun e => by cases e⟩
      cases hb
      exact ⟨hbr.wf, rfl, fun m hm hh => hbr.own (h.faithful hC hms h1) hm hh⟩
    · refine ⟨none, fun b hb => (by simp at hb), fun _ hm => ?_⟩
      obtain ⟨s, h1, h2⟩ := List.mem_map.mp hm
      exact hs ⟨s, h1, h2⟩
  have hL := Blk.liftNoise (C := C) (env := env) (tracked := cfg.tracked) (frp := cfg.frp) hC
    (fun x => Classical.choose (hex x))
    (fun x B hB => ⟨((Classical.choose_spec (hex x)).1 B hB).1, ((Classical.choose_spec (hex x)).1 B hB).2.1⟩)
  obtain ⟨mp', h1, _⟩ := (hL.parts (E0 := [])).toParts.run_total (ms := ms) (mp := mp)
    (fun m hm => by
      refine ⟨?_, fun B hB => ((Classical.choose_spec (hex (hashOf m.key))).1 B hB).2.2 m hm rfl, fun hB hty => ?_⟩
      · rcases h.only m (hms m hm) with ⟨s, h1, x, hx, h2, _⟩ | hN
        · obtain ⟨b, hb⟩ := bridge hC (h.correct s h1).1 (h.correct s h1).2
          obtain ⟨i, hi, _⟩ := hb.mine x hx
          rw [h2, hi]; exact keyOf_length C i
        · have := hN.len; omega
      · have hno := (Classical.choose_spec (hex (hashOf m.key))).2 hB
        rcases h.only m (hms m hm) with ⟨s, h1, h2⟩ | hN
        · exact (hno (List.mem_map.mpr ⟨s, h1, (copy_hash hC (h.correct s h1) h2).symm⟩)).elim
        · exact hN.noHeader (by rw [hN.headD, hty]))
    ⟨Base.newMP hn, LiftInv.newMP hn trivial⟩
  exact ⟨mp', h1⟩

theorem Spec.NoisySupply.emitted (h : NoisySupply C cfg tree broken received) (hC : C.Lawful) {mp mp' : MP} (hn : newMP cfg = .ok mp)
    {ms : List RMsg} (hms : ∀ m ∈ ms, m ∈ received) (hr : mp.run C env ms = .ok mp') {pb : PB} (hpb : pb ∈ mp'.emitted) :
    ∃ s ∈ tree, Exact cfg.tracked s.schema s.args s.subs pb := by
  have hprov := ((prov_parts C env (· ∈ ms) (run_ok_len hr) cfg.tracked cfg.frp).emitted hn
    (by intro s o hs; simp at hs) (fun m hm => hm) hr pb hpb).1
  obtain ⟨hd, b, hof, hdec, _⟩ := hprov.head
  rcases h.only hd (hms _ hof.mem) with ⟨s, hs, hcp⟩ | hN
  case inr => rw [hN.noHeader hof.type] at hdec; cases hdec
  have hh : pb.hash = s.args.hash := hof.block.symm.trans (copy_hash hC (h.correct s hs) hcp)
  rcases List.mem_append.mp hs with ht | hb
  case inr =>
    obtain ⟨x, hx, hM, hno⟩ := h.lacks s hb
    obtain ⟨m, hm, e⟩ := emitted_there hC (h.correct s hs).1 (h.correct s hs).2 hn (h.faithful hC hms hs) hr ⟨pb, hpb, hh⟩ x hx hM
    exact (hno m (hms m hm) e).elim
  exact ⟨s, ht, C02_emitted_exact hC (h.correct s hs).1 (h.correct s hs).2 hn
    (h.faithful hC hms hs) hr hpb hh⟩

theorem Spec.NoisySupply.types (h : NoisySupply C cfg tree broken received) (hC : C.Lawful) : ∀ m ∈ received, m.key.headD 0 ≠ ReorgType := by
  intro m hm
  rcases h.only m hm with ⟨s, hs, x, hx, h1, _⟩ | hN
  case inr => exact fun e => hN.notReorg (by rw [hN.headD, e])
  obtain ⟨b, hb⟩ := bridge hC (h.correct s hs).1 (h.correct s hs).2
  obtain ⟨i, hi, hmine⟩ := hb.mine x hx
  rw [h1, hi]
  cases hmine <;> simp [keyOf, getKey, ReorgType, BatchType, BatchMsgType, BatchDeleteMsgType, SubBatchHeaderType, SubBatchMsgType]

/-- In a run of the pipeline there are no notifications, and the blocks handled are exact. -/
theorem Spec.NoisySupply.pieces (h : NoisySupply C cfg tree broken received) (hC : C.Lawful) {s0 s : Sys}
    (hst : Sys.start cfg (received.map Call.msg) = .ok s0) (hs : Sys.Steps C env o s0 s) :
    ∃ mp0 omp0 ms ds, newMP cfg = .ok mp0 ∧ newOMP cfg = .ok omp0 ∧ (∃ rest, received = ms ++ rest ∧ s.todo = rest.map Call.msg) ∧
      mp0.run C env ms = .ok s.mp ∧ s.ops = ds.map OOp.block ∧ omp0.run o (ds.map OOp.block) = .ok s.omp ∧
      s.mp.emitted = ds ++ (s.ch ++ blocksSent s.out) := by
  have hp := (Piped.start hst).steps hs
  obtain ⟨mp0, hn, hr⟩ := hp.consists.mp
  obtain ⟨omp0, ho, hor⟩ := hp.consists.omp
  obtain ⟨ms, rest, h1, h2, h3⟩ : ∃ ms rest, received = ms ++ rest ∧ ms.map Call.msg = s.calls ∧ rest.map Call.msg = s.todo :=
    List.map_eq_append_iff.mp hp.consists.calls
  rw [← h2] at hr
  have hr := calls_msgs.mp hr
  have hq : ∀ m ∈ ms, m.key.headD 0 ≠ ReorgType := fun m hm => h.types hC m (by rw [h1]; simp [hm])
  have hnote := no_notes hn hq hr
  have hops : s.ops = (blocksOf s.ops).map OOp.block := by
    refine ops_blocks ?_
    have := hp.notes
    rw [hnote] at this
    exact (List.append_eq_nil_iff.mp this.symm).1
  refine ⟨mp0, omp0, ms, blocksOf s.ops, hn, ho, ⟨rest, h1, h3.symm⟩, hr, hops, ?_, hp.blocks⟩
  rw [← hops]; exact hor

/-- If the ordering layer works through the blocks emitted so far, neither goroutine is about to fault. -/
theorem Spec.NoisySupply.calmAt (h : NoisySupply C cfg tree broken received) (hC : C.Lawful) {s0 s : Sys}
    (hst : Sys.start cfg (received.map Call.msg) = .ok s0) (hs : Sys.Steps C env o s0 s)
    (hord : ∀ (omp0 : OMP) (ds more : List PB), newOMP cfg = .ok omp0 →
      (∀ x ∈ ds, ∃ s ∈ tree, Exact cfg.tracked s.schema s.args s.subs x) → s.mp.emitted = ds ++ more →
      ∃ s', omp0.run o (ds.map OOp.block) = .ok s') : ¬ Faulty C env o s := by
  obtain ⟨mp0, omp0, ms, ds, hn, ho, ⟨rest, h1, h2⟩, h3, h4, h5, h6⟩ := h.pieces hC hst hs
  rintro (⟨c, cs, f, ht, hf⟩ | ⟨pb, r, f, ht, hf⟩)
  · rw [ht] at h2
    cases rest with
    | nil => simp at h2
    | cons m rest =>
      simp only [List.map_cons, List.cons.injEq] at h2
      obtain ⟨rfl, _⟩ := h2
      obtain ⟨mp', hr⟩ := C160_total (env := env) h hC hn (ms := ms ++ [m])
        (fun x hx => by
          rw [h1]
          rcases List.mem_append.mp hx with hx | hx
          · simp [hx]
          · simp [List.mem_singleton.mp hx])
      have hr := calls_msgs.mpr hr
      rw [List.map_append] at hr
      unfold MP.calls at hr
      rw [List.foldlM_append, show List.foldlM (MP.call C env) mp0 (ms.map Call.msg) = .ok s.mp from calls_msgs.mpr h3] at hr
      have hr : (([m].map Call.msg).foldlM (MP.call C env) s.mp) = .ok mp' := hr
      rw [List.map_cons, List.foldlM_cons, hf] at hr
      simp [bind, Except.bind] at hr
  · have hex : ∀ x ∈ ds ++ [pb], ∃ s ∈ tree, Exact cfg.tracked s.schema s.args s.subs x := by
      intro x hx
      refine h.emitted hC hn (fun m hm => by rw [h1]; simp [hm]) h3 ?_
      rw [h6, ht]
      rcases List.mem_append.mp hx with hx | hx
      · simp [hx]
      · simp [List.mem_singleton.mp hx]
    obtain ⟨s', g1⟩ := hord omp0 (ds ++ [pb]) (r ++ blocksSent s.out) ho hex (by rw [h6, ht]; simp)
    rw [List.map_append] at g1
    unfold OMP.run at g1
    rw [List.foldlM_append, show List.foldlM (OMP.op o) omp0 (ds.map OOp.block) = .ok s.omp from h5] at g1
    have g1 : (([pb].map OOp.block).foldlM (OMP.op o) s.omp) = .ok s' := g1
    rw [List.map_cons, List.foldlM_cons] at g1
    rw [show OMP.op o s.omp (.block pb) = .error f from hf] at g1
    simp [bind, Except.bind] at g1

/-- If the ordering layer works through all lists of exact blocks, neither goroutine is ever about to fault. -/
theorem Spec.NoisySupply.calm (h : NoisySupply C cfg tree broken received) (hC : C.Lawful) {s0 s : Sys}
    (hst : Sys.start cfg (received.map Call.msg) = .ok s0) (hs : Sys.Steps C env o s0 s)
    (hord : ∀ (omp0 : OMP) (ds : List PB), newOMP cfg = .ok omp0 → (∀ x ∈ ds, ∃ s ∈ tree, Exact cfg.tracked s.schema s.args s.subs x) →
      ∃ s', omp0.run o (ds.map OOp.block) = .ok s') : ¬ Faulty C env o s :=
  h.calmAt hC hst hs (fun omp0 ds _ ho hds _ => hord omp0 ds ho hds)

theorem Spec.NoisyTree.world (h : NoisyTree C cfg root tree broken received) {pb : PB} (hpb : ∃ s ∈ tree, Exact cfg.tracked s.schema s.args s.subs pb) :
    ((treeWorld root tree).Has pb ∧ pb.hash ≠ Hash.zero) ∧ (treeWorld root tree).Heavier pb ∧ (treeWorld root tree).Numbered pb ∧
      ¬ Forbidden cfg.whitelist pb ∧ pb.hash ∈ tree.map (·.args.hash) := by
  obtain ⟨s, hs, he⟩ := hpb
  exact h.toHeaderTree.world (fun s hs => (h.toNoisySupply.tc hs).2.weight) ⟨s, hs, he.number, he.weight, he.hash, he.parent⟩

/-- If no eviction request is acted on before the last message, blocks are emitted after their parents. -/
theorem Spec.NoisyTree.order (h : NoisyTree C cfg root tree broken received) (hC : C.Lawful) (hf : HeadersFollow root tree received) {mp0 : MP}
    (hn : newMP cfg = .ok mp0) {ms rest : List RMsg} (hms : received = ms ++ rest) {mp : MP} (hr : mp0.run C env ms = .ok mp)
    (hq : ∀ l1 m l2 mp1, ms = l1 ++ m :: l2 → mp0.run C env l1 = .ok mp1 → ∀ t, t < mp1.tick → env.evict t = []) :
    ParentsFirst cfg.lastHash mp.emitted := by
  induction ms using snoc_induction generalizing rest mp with
  | nil =>
    cases hr
    have h0 : mp0.emitted = [] := by
      unfold newMP at hn
      split at hn
      · cases hn
      · cases hn; rfl
    intro l1 b l2 e
    rw [h0] at e
    simp at e
  | snoc l m ih =>
    obtain ⟨mp1, hr1, hr2⟩ := run_append hr
    obtain ⟨es, hes⟩ := emitted_grows hn hr1 hr
    have ih := ih (rest := m :: rest) (by rw [hms]; simp) hr1 (fun l1 x l2 mp1 e => hq l1 x (l2 ++ [m]) mp1 (by rw [e]; simp))
    have hparent : ∀ b ∈ es, b.hash = cfg.lastHash ∨ ∃ a ∈ mp1.emitted, a.hash = b.parentHash := by
      intro b hb
      have hbm : b ∈ mp.emitted := by rw [hes]; simp [hb]
      obtain ⟨hd, _, hof, _⟩ := ((prov_parts C env (· ∈ l ++ [m]) (run_ok_len hr) cfg.tracked cfg.frp).emitted hn
        (by intro s o hs; simp at hs) (fun m hm => hm) hr b hbm).1.head
      obtain ⟨s, hs, he⟩ := h.toNoisySupply.emitted hC hn (fun x hx => by rw [hms]; simp at hx ⊢; rcases hx with hx | hx <;> simp [hx]) hr hbm
      obtain ⟨a, c, e⟩ := List.append_of_mem hof.mem
      rcases hf a hd (c ++ rest) (by rw [hms, e]; simp) hof.type s hs (hof.block.trans he.hash) with hroot | ⟨p, hp, e1, hall⟩
      · left; rw [he.hash, hroot, h.hash]
      · right
        have hsub : ∀ x ∈ a, x ∈ l := by
          intro x hx
          rcases List.append_eq_append_iff.mp e with ⟨u, hu1, hu2⟩ | ⟨u, hu1, hu2⟩
          · rcases u with _ | ⟨y, u⟩
            · simp at hu1; rw [← hu1]; exact hx
            · simp at hu2
          · rw [hu1]; simp [hx]
        have hk : Keeps (env.upTo mp1.tick) p.args.number := by
          intro t n hn'
          unfold Env.upTo at hn'
          simp only [] at hn'
          split at hn'
          · rename_i ht
            rw [hq l m [] mp1 rfl hr1 t ht] at hn'
            simp at hn'
          · simp at hn'
        obtain ⟨pb, hpb, hex⟩ := C01_delivered hC (h.toNoisySupply.tc hp).1 (h.toNoisySupply.tc hp).2 hn hk
          (h.toNoisySupply.faithful hC (fun x hx => by rw [hms]; simp [hx]) (List.mem_append_left _ hp))
          (fun x hx => by obtain ⟨y, hy, hxy⟩ := hall x hx; exact ⟨y, hsub y hy, hxy⟩) (run_upTo hr1 (Nat.le_refl _))
        exact ⟨pb, hpb, by rw [hex.hash, e1, he.parent]⟩
    intro l1 b l2 e
    rw [hes] at e
    rcases List.append_eq_append_iff.mp e with ⟨u, hu1, hu2⟩ | ⟨u, hu1, hu2⟩
    · rcases hparent b (by rw [hu2]; simp) with e | ⟨a, ha, e⟩
      · exact .inl e
      · exact .inr ⟨a, by rw [hu1]; simp [ha], e⟩
    · rcases u with _ | ⟨y, u⟩
      · simp at hu2
        rcases hparent b (by rw [← hu2]; simp) with e | ⟨a, ha, e⟩
        · exact .inl e
        · exact .inr ⟨a, by rw [hu1] at ha; simpa using ha, e⟩
      · simp at hu2
        obtain ⟨rfl, _⟩ := hu2
        exact ih l1 b u hu1

/-- The ordering layer after handling emitted blocks. -/
theorem Spec.NoisyTree.handled (h : NoisyTree C cfg root tree broken received) (hwin : (tree.length : Int) ≤ 2 * cfg.reorgThreshold) {omp0 omp : OMP}
    (ho : newOMP cfg = .ok omp0) {ds : List PB} (hds : ∀ pb ∈ ds, ∃ s ∈ tree, Exact cfg.tracked s.schema s.args s.subs pb)
    (hpf : ParentsFirst cfg.lastHash ds) (hr : omp0.run o (ds.map OOp.block) = .ok omp) :
    (∀ n, OOut.evictOlder n ∉ omp.log) ∧ (ds ≠ [] → FirstHeaviest ds omp.lastHash) := by
  obtain ⟨s', g1, g2⟩ := parents_first_run (o := o) (U := tree.map (·.args.hash)) h.rootHash h.rootWeight (fun b hb => (h.world (hds b hb)).1)
    (fun b hb => (h.world (hds b hb)).2.1) (fun b hb => (h.world (hds b hb)).2.2.1) (by simpa using hwin) h.inU
    (fun b hb => (h.world (hds b hb)).2.2.2.2) (fun b hb => (h.world (hds b hb)).2.2.2.1) hpf ho
  rw [hr] at g1
  cases g1
  exact ⟨g2.calm, fun hne => g2.head.resolve_left (fun e => hne e.1)⟩

theorem Spec.NoisyTree.consequences (h : NoisyTree C cfg root tree broken received) (hC : C.Lawful) (hwin : (tree.length : Int) ≤ 2 * cfg.reorgThreshold)
    (hf : HeadersFollow root tree received) {s0 s : Sys}
    (hst : Sys.start cfg (received.map Call.msg) = .ok s0) (hs : Sys.Steps C env o s0 s) (key : Undisturbed C env cfg s.calls) :
    ParentsFirst cfg.lastHash s.mp.emitted ∧ (∀ n, OOut.evictOlder n ∉ s.omp.log) ∧
      (blocksOf s.ops ≠ [] → FirstHeaviest (blocksOf s.ops) s.omp.lastHash) := by
  obtain ⟨mp0, omp0, ms, ds, hn, ho, ⟨rest, h1, h2⟩, h3, h4, h5, h6⟩ := h.toNoisySupply.pieces hC hst hs
  have hcalls : s.calls = ms.map Call.msg := by
    have := ((Piped.start hst).steps hs).consists.calls
    rw [h1, h2, List.map_append] at this
    exact (List.append_cancel_right this).symm
  have hpf := h.order hC hf hn h1 h3 (key mp0 ms hn hcalls)
  have hds : blocksOf s.ops = ds := by rw [h4, blocksOf_map]
  refine ⟨hpf, ?_⟩
  rw [hds]
  refine h.handled hwin ho ?_ (parentsFirst_prefix (by rw [h6] at hpf; exact hpf)) h5
  intro pb hpb
  exact h.toNoisySupply.emitted hC hn (fun m hm => by rw [h1]; simp [hm]) h3 (by rw [h6]; simp [hpb])

/-- What holds in every state: blocks were emitted after their parents, and no request was sent. -/
theorem Spec.NoisyTree.inside (h : NoisyTree C cfg root tree broken received) (hC : C.Lawful) (hwin : (tree.length : Int) ≤ 2 * cfg.reorgThreshold)
    (hf : HeadersFollow root tree received) {s0 s : Sys}
    (hst : Sys.start cfg (received.map Call.msg) = .ok s0) (hs : CausalSteps C env o s0 s) :
    ParentsFirst cfg.lastHash s.mp.emitted ∧ (∀ n, OOut.evictOlder n ∉ s.omp.log) ∧
      (blocksOf s.ops ≠ [] → FirstHeaviest (blocksOf s.ops) s.omp.lastHash) := by
  refine h.consequences hC hwin hf hst hs.steps ?_
  induction hs with
  | refl =>
    intro mp0 ms _ hc l1 m l2 mp1 e
    have : s0.calls = [] := by
      unfold Sys.start at hst
      obtain ⟨mp, _, hst⟩ := bind_ok.mp hst
      obtain ⟨omp, _, hst⟩ := bind_ok.mp hst
      cases hst; rfl
    rw [this] at hc
    have := (List.map_eq_nil_iff.mp hc.symm)
    rw [this] at e
    simp at e
  | step hs hstep hheard ih =>
    rename_i s1 s2
    cases hstep with
    | call ht hout hc =>
      rename_i c cs mp
      have hc1 := (h.consequences hC hwin hf hst hs.steps ih).2.1
      have hh := hheard (by simp)
      obtain ⟨mp0', omp0, ms1, ds, hn', ho, ⟨rest, h1, h2⟩, h3, h4, h5, h6⟩ := h.toNoisySupply.pieces hC hst hs.steps
      have hcalls : s1.calls = ms1.map Call.msg := by
        have := ((Piped.start hst).steps hs.steps).consists.calls
        rw [h1, h2, List.map_append] at this
        exact (List.append_cancel_right this).symm
      intro mp0 ms hn hcs l1 m l2 mp1 e hr t htick
      rw [hn'] at hn
      cases hn
      have hcs : s1.calls ++ [c] = ms.map Call.msg := hcs
      rw [hcalls, e] at hcs
      rw [List.map_append, List.map_cons] at hcs
      rcases l2 with _ | ⟨y, l2⟩
      · rw [List.map_nil] at hcs
        have := call_msg_inj (List.append_inj_left' hcs rfl)
        subst this
        rw [h3] at hr
        cases hr
        cases hev : env.evict t with
        | nil => rfl
        | cons n rest => exact (hc1 n (hh t htick n (by rw [hev]; simp))).elim
      · obtain ⟨l3, z, e3⟩ : ∃ l3 z, y :: l2 = l3 ++ [z] := ⟨(y :: l2).dropLast, (y :: l2).getLast (List.cons_ne_nil _ _), (List.dropLast_concat_getLast (List.cons_ne_nil _ _)).symm⟩
        rw [e3, List.map_append] at hcs
        have hcs : ms1.map Call.msg ++ [c] = (l1 ++ m :: l3).map Call.msg ++ [Call.msg z] := by rw [hcs]; simp
        have := call_msg_inj (List.append_inj_left' hcs rfl)
        exact ih mp0' ms1 hn' hcalls l1 m l3 mp1 this hr t htick
    | sendBlock h1 h2 => exact ih
    | sendReorg h1 h2 => exact ih
    | sendWaiter h1 => exact ih
    | block h1 h2 => exact ih
    | reorg h1 h2 => exact ih

/-- **C160**, while running: at every moment the head of the subscribers is the first-handled block of maximal weight among those handled, and
nothing was asked to be dropped. -/
theorem C160_head (h : NoisyTree C cfg root tree broken received) (hC : C.Lawful) (hwin : (tree.length : Int) ≤ 2 * cfg.reorgThreshold)
    (hf : HeadersFollow root tree received) {s0 s : Sys} (hst : Sys.start cfg (received.map Call.msg) = .ok s0)
    (hs : CausalSteps C env o s0 s) (hne : blocksOf s.ops ≠ []) :
    FirstHeaviest (blocksOf s.ops) s.omp.lastHash ∧ (∀ n, OOut.evictOlder n ∉ s.omp.log) :=
  ⟨(h.inside hC hwin hf hst hs).2.2 hne, (h.inside hC hwin hf hst hs).2.1⟩

/-- **C160**, at the end: when all messages have arrived (in any order within the condition, any number of times) and everything has been handled,
the subscribers, having applied all updates, hold a chain of blocks exactly as produced that ends in a block of maximal weight of
the whole tree. -/
theorem C160_end (h : NoisyTree C cfg root tree broken received) (hC : C.Lawful) (hwin : (tree.length : Int) ≤ 2 * cfg.reorgThreshold)
    (hf : HeadersFollow root tree received) (ha : ∀ s ∈ tree, AllArrive s.msgs received) {s0 s : Sys}
    (hst : Sys.start cfg (received.map Call.msg) = .ok s0) (hs : CausalSteps C env o s0 s) (hd : s.Drained) (hg : Heard env s) :
    ∃ base chain top, Replays cfg.lastHash s.omp.log base chain ∧ Linked base chain ∧ endOf base chain = top.args.hash ∧
      top ∈ tree ∧ (∀ sb ∈ tree, sb.args.weight ≤ top.args.weight) ∧
      ∀ b ∈ chain, ∃ sb ∈ tree, Exact cfg.tracked sb.schema sb.args sb.subs b := by
  have hin := h.inside hC hwin hf hst hs
  obtain ⟨mp0, omp0, ms, ds, hn, ho, ⟨rest, h1, h2⟩, h3, h4, h5, h6⟩ := h.toNoisySupply.pieces hC hst hs.steps
  rw [hd.1] at h2
  have hrest : rest = [] := List.map_eq_nil_iff.mp h2.symm
  subst hrest
  rw [List.append_nil] at h1
  subst h1
  rw [hd.2.1, hd.2.2.1] at h6
  have h6 : s.mp.emitted = ds := by simpa [blocksSent] using h6
  have hds : blocksOf s.ops = ds := by rw [h4, blocksOf_map]
  have hex : ∀ pb ∈ ds, ∃ s ∈ tree, Exact cfg.tracked s.schema s.args s.subs pb := fun pb hpb =>
    h.toNoisySupply.emitted hC hn (fun m hm => hm) h3 (by rw [h6]; exact hpb)
  have hk : ∀ n, Keeps (env.upTo s.mp.tick) n := by
    intro n t x hx
    unfold Env.upTo at hx
    simp only [] at hx
    split at hx
    · rename_i ht
      exact (hin.2.1 x (hg t ht x hx)).elim
    · simp at hx
  have hall : ∀ sb ∈ tree, ∃ pb ∈ ds, Exact cfg.tracked sb.schema sb.args sb.subs pb := by
    intro sb hsb
    obtain ⟨pb, hpb, he⟩ := C01_delivered hC (h.toNoisySupply.tc hsb).1 (h.toNoisySupply.tc hsb).2 hn (hk _)
      (h.toNoisySupply.faithful hC (fun _ hm => hm) (List.mem_append_left _ hsb)) (ha sb hsb) (run_upTo h3 (Nat.le_refl _))
    exact ⟨pb, by rw [← h6]; exact hpb, he⟩
  have hne : blocksOf s.ops ≠ [] := by
    obtain ⟨pb, hpb, _⟩ := hall root h.mem
    rw [hds]
    intro e
    rw [e] at hpb
    simp at hpb
  obtain ⟨l1, b, l2, e, e1, e2, _⟩ := hin.2.2 hne
  rw [hds] at e e2
  obtain ⟨top, htop, hx⟩ := hex b (by rw [e]; simp)
  obtain ⟨base, chain, g1, g2, g3⟩ := C28_continuous (o := o) (W := treeWorld root tree) (ops := ds.map OOp.block) (s0 := omp0) h.rootHash
    (by rw [blocksOf_map]; exact fun b hb => (h.world (hex b hb)).1) ho h5
  refine ⟨base, chain, top, g1, g2, by rw [g3, ← e1, hx.hash], htop, ?_, ?_⟩
  · intro sb hsb
    obtain ⟨pb, hpb, he⟩ := hall sb hsb
    have := e2 pb hpb
    have h8 := he.weight
    have h9 := hx.weight
    omega
  · intro x hx
    obtain ⟨a, r, k1, k2⟩ := replays_sent g1 x hx
    exact hex x (by rw [← h6]; exact C43_updates hst hs.steps k1 (List.mem_append_left _ k2))

/-- **C160**, no faults: whatever the order of the messages, no goroutine is ever about to fault, and every execution can be completed. -/
theorem C160_no_fault (h : NoisyTree C cfg root tree broken received) (hC : C.Lawful) (hwin : (tree.length : Int) ≤ 2 * cfg.reorgThreshold)
    {s0 s : Sys} (hst : Sys.start cfg (received.map Call.msg) = .ok s0) (hs : Sys.Steps C env o s0 s) :
    ¬ Faulty C env o s ∧ ∃ s', Sys.Steps C env o s s' ∧ s'.Drained := by
  have key : ∀ s, Sys.Steps C env o s0 s → ¬ Faulty C env o s := by
    intro s hs
    refine h.toNoisySupply.calm hC hst hs ?_
    intro omp0 ds ho hds
    exact C35_partial (o := o) h.rootHash h.rootWeight (fun b hb => (h.world (hds b hb)).1) (fun b hb => (h.world (hds b hb)).2.1)
      (fun b hb => (h.world (hds b hb)).2.2.1) ⟨tree.map (·.args.hash), by simpa using hwin, h.inU, fun b hb => (h.world (hds b hb)).2.2.2.2⟩ ho
  refine ⟨key s hs, ?_⟩
  obtain ⟨s', h1, h2⟩ := s.drains (C := C) (env := env) (o := o) ((Piped.start (C := C) (env := env) (o := o) hst).steps hs).room
  refine ⟨s', h1, h2.resolve_right (key s' ?_)⟩
  clear h2
  induction h1 with
  | refl => exact hs
  | step _ h ih => exact .step ih h

/-- The ordering layer, fed with emitted blocks, works through them. -/
theorem Spec.NoisyChain.ordered (h : NoisyChain C cfg n chain broken received) {omp0 : OMP} (hn : newOMP cfg = .ok omp0) {ds : List PB}
    (hds : ∀ pb ∈ ds, ∃ s ∈ chain, Exact cfg.tracked s.schema s.args s.subs pb) :
    ∃ s em rest, omp0.run o (ds.map OOp.block) = .ok s ∧ chain.map bare = em ++ rest ∧ addedHashes s.log = Spec.hashes em ∧
      (∀ x ∈ s.log, (∃ a, x = .update a []) ∨ ∃ sb ∈ chain, x = .evictOlder sb.args.number) ∧
      ∀ b rest', rest = b :: rest' → b.hash ∉ Spec.hashes ds ∧ ∀ n, OOut.evictOlder n ∈ s.log → n ≤ b.number := by
  refine chain_ordered h.links h.hashes h.whitelist (fun s hs => (h.toNoisySupply.tc hs).2.weight) hn ?_
  intro pb hpb
  obtain ⟨s, hs, he⟩ := hds pb hpb
  exact ⟨s, hs, he.number, he.weight, he.hash, he.parent⟩

/-- **C160**: under every schedule the pipeline works without fault, and at the end (which every execution reaches) the subscriber has seen
each block exactly once, in chain order, each exactly as produced, and nothing removed. The chain may be of any length, and its messages
may be received in any order, any number of times; the eviction requests acted on are those sent by the ordering layer, each naming the
number of a block of the chain. -/
theorem C160_chain (h : NoisyChain C cfg n chain broken received) (hC : C.Lawful) (ha : ∀ s ∈ chain, AllArrive s.msgs received) {s0 s : Sys}
    (hst : Sys.start cfg (received.map Call.msg) = .ok s0) (hs : Sys.Steps C env o s0 s) (hd : s.Drained) (hg : Genuine env s) :
    (∀ x ∈ s.omp.log, (∃ a, x = .update a []) ∨ ∃ sb ∈ chain, x = .evictOlder sb.args.number) ∧
    (s.omp.log.flatMap addedBy).length = chain.length ∧
    ∀ x ∈ chain.zip (s.omp.log.flatMap addedBy), Exact cfg.tracked x.1.schema x.1.args x.1.subs x.2 := by
  obtain ⟨mp0, omp0, ms, ds, hn, ho, ⟨rest, h1, h2⟩, h3, h4, h5, h6⟩ := h.toNoisySupply.pieces hC hst hs
  rw [hd.1] at h2
  have hrest : rest = [] := List.map_eq_nil_iff.mp h2.symm
  subst hrest
  rw [List.append_nil] at h1
  subst h1
  rw [hd.2.1, hd.2.2.1] at h6
  have h6 : s.mp.emitted = ds := by simpa [blocksSent] using h6
  have hex : ∀ pb ∈ ds, ∃ s ∈ chain, Exact cfg.tracked s.schema s.args s.subs pb := fun pb hpb =>
    h.toNoisySupply.emitted hC hn (fun m hm => hm) h3 (by rw [h6]; exact hpb)
  obtain ⟨s', em, rest, g1, g2, g3, g4, g5⟩ := h.ordered (o := o) ho hex
  rw [h5] at g1
  have g1 := Except.ok.inj g1
  subst g1
  have hrest : rest = [] := by
    cases rest with
    | nil => rfl
    | cons b rest =>
      have : b ∈ chain.map bare := by rw [g2]; simp
      obtain ⟨sb, hsb, rfl⟩ := List.mem_map.mp this
      obtain ⟨g6, g7⟩ := g5 _ _ rfl
      -- no request asked to drop this block
      obtain ⟨pb, hpb, he⟩ := C01_delivered hC (h.toNoisySupply.tc hsb).1 (h.toNoisySupply.tc hsb).2 hn
        (fun t x hx => g7 x (hg t x hx))
        (h.toNoisySupply.faithful hC (fun _ hm => hm) (List.mem_append_left _ hsb)) (ha sb hsb) h3
      rw [h6] at hpb
      exact (g6 (List.mem_map.mpr ⟨pb, hpb, he.hash⟩)).elim
  rw [hrest, List.append_nil] at g2
  rw [← g2] at g3
  have hhash : (s.omp.log.flatMap addedBy).map PB.hash = chain.map (·.args.hash) := by
    have : addedHashes s.omp.log = (s.omp.log.flatMap addedBy).map PB.hash := rfl
    rw [← this, g3]
    simp [Spec.hashes, bare, Function.comp_def]
  have hlen : (s.omp.log.flatMap addedBy).length = chain.length := by
    have := congrArg List.length hhash
    simpa using this
  refine ⟨g4, hlen, ?_⟩
  intro x hx
  obtain ⟨i, hi, rfl⟩ := List.mem_iff_getElem.mp hx
  simp only [List.length_zip] at hi
  rw [List.getElem_zip]
  simp only []
  have hpb : (s.omp.log.flatMap addedBy)[i] ∈ s.omp.log.flatMap addedBy := List.getElem_mem _
  have hheq : ((s.omp.log.flatMap addedBy)[i]).hash = (chain[i]).args.hash := by
    have := congrArg (fun l => l[i]?) hhash
    simp only [List.getElem?_map] at this
    rw [List.getElem?_eq_getElem (by omega), List.getElem?_eq_getElem (by omega)] at this
    simpa using this
  obtain ⟨out, hout, hin⟩ := List.mem_flatMap.mp hpb
  cases out with
  | update a r =>
    have hem := C43_updates hst hs hout (List.mem_append_left _ hin)
    obtain ⟨sb, hsb, he⟩ := h.toNoisySupply.emitted hC hn (fun m hm => hm) h3 hem
    have : sb = chain[i] := h.toNoisySupply.inj _ _ (List.mem_append_left _ hsb) (List.mem_append_left _ (List.getElem_mem _)) (he.hash.symm.trans hheq)
    rw [this] at he
    exact he
  | reorg n x => simp [addedBy] at hin
  | evictOlder n => simp [addedBy] at hin

/-- **C160**, no faults: in no reachable state is either goroutine about to fault, so every execution can be completed. -/
theorem C160_chain_no_fault (h : NoisyChain C cfg n chain broken received) (hC : C.Lawful) {s0 s : Sys}
    (hst : Sys.start cfg (received.map Call.msg) = .ok s0) (hs : Sys.Steps C env o s0 s) :
    ¬ Faulty C env o s ∧ ∃ s', Sys.Steps C env o s s' ∧ s'.Drained := by
  have key : ∀ s, Sys.Steps C env o s0 s → ¬ Faulty C env o s := by
    intro s hs
    refine h.toNoisySupply.calm hC hst hs ?_
    intro omp0 ds ho hds
    obtain ⟨s', _, _, g1, _⟩ := h.ordered (o := o) ho hds
    exact ⟨s', g1⟩
  refine ⟨key s hs, ?_⟩
  obtain ⟨s', h1, h2⟩ := s.drains (C := C) (env := env) (o := o) ((Piped.start (C := C) (env := env) (o := o) hst).steps hs).room
  refine ⟨s', h1, h2.resolve_right (key s' ?_)⟩
  clear h2
  induction h1 with
  | refl => exact hs
  | step _ h ih => exact .step ih h

end

/-! ## Example -/

/-- A part of a block that is not there: the key ends where the hash of the sub-batch should begin. -/
def exStrayPart : RMsg := ⟨SubBatchMsgType :: (exHash 9).bytes, [], 0, []⟩

/-- A header that cannot be decoded. -/
def exStrayHeader : RMsg := ⟨BatchType :: (exHash 9).bytes, [], 1, []⟩

/-- A message of a type the consumer does not know, with the hash of `exBlock`. -/
def exStrayType : RMsg := ⟨200 :: (exHash 1).bytes, [], 2, []⟩

theorem exStray_noise {tree : List SentBlock} {l : List Hash} (ht : tree.map (·.args.hash) = l) (h9 : exHash 9 ∉ l) :
    ∀ m ∈ [exStrayPart, exStrayHeader, exStrayType], Noise Avro.codec tree m := by
  intro m hm
  simp only [List.mem_cons, List.not_mem_nil, or_false] at hm
  have e9 : blockOf exStrayPart.key = exHash 9 := by decide +kernel
  have e9' : blockOf exStrayHeader.key = exHash 9 := by decide +kernel
  rcases hm with rfl | rfl | rfl
  · exact ⟨by decide, by decide, .inr (by rw [ht, e9]; exact h9), fun e => absurd e (by decide)⟩
  · refine ⟨by decide, by decide, .inr (by rw [ht, e9']; exact h9), fun _ => ?_⟩
    have : (Avro.codec.decBatch exStrayHeader.value).isNone = true := by decide +kernel
    simpa using this
  · exact ⟨by decide, by decide, .inl ⟨by decide, 200, rfl, by decide⟩, fun e => absurd e (by decide)⟩

/-- Messages before and after that are not headers of blocks of the tree do not change that headers follow. -/
theorem headersFollow_pad {root : SentBlock} {tree : List SentBlock} {pre received post : List RMsg}
    (hnot : ∀ m ∈ pre ++ post, ∀ s ∈ tree, m.key.head? = some BatchType → blockOf m.key ≠ s.args.hash) (hF : HeadersFollow root tree received) :
    HeadersFollow root tree (pre ++ (received ++ post)) := by
  intro l1 m l2 e hty s hs hb
  rcases List.append_eq_append_iff.mp e with ⟨u, hu1, hu2⟩ | ⟨u, hu1, hu2⟩
  · rcases List.append_eq_append_iff.mp hu2 with ⟨v, hv1, hv2⟩ | ⟨v, hv1, hv2⟩
    · exact (hnot m (by rw [hv2]; simp) s hs hty hb).elim
    · rcases v with _ | ⟨y, v⟩
      · simp at hv2
        exact (hnot m (by rw [← hv2]; simp) s hs hty hb).elim
      · simp only [List.cons_append, List.cons.injEq] at hv2
        obtain ⟨rfl, _⟩ := hv2
        rcases hF u m v hv1 hty s hs hb with h | ⟨p, hp, h1, h2⟩
        · exact .inl h
        · refine .inr ⟨p, hp, h1, fun x hx => ?_⟩
          obtain ⟨y, hy, hxy⟩ := h2 x hx
          exact ⟨y, by rw [hu1]; simp [hy], hxy⟩
  · rcases u with _ | ⟨y, u⟩
    · simp only [List.nil_append] at hu2
      rcases received with _ | ⟨z, r⟩
      · simp only [List.nil_append] at hu2
        exact (hnot m (by rw [← hu2]; simp) s hs hty hb).elim
      · simp only [List.cons_append, List.cons.injEq] at hu2
        obtain ⟨rfl, _⟩ := hu2
        rcases hF [] m r rfl hty s hs hb with h | ⟨p, hp, h1, h2⟩
        · exact .inl h
        · refine .inr ⟨p, hp, h1, fun x hx => ?_⟩
          obtain ⟨y, hy, _⟩ := h2 x hx
          simp at hy
    · simp only [List.cons_append, List.cons.injEq] at hu2
      obtain ⟨rfl, _⟩ := hu2
      exact (hnot m (by rw [hu1]; simp) s hs hty hb).elim

/-- A block below `exBlock`. -/
def exOldBlock : BlockArgs := { exBlock with number := 4, hash := exHash 2, parentHash := exHash 6, weight := 290 }

theorem exOldBlock_ok : ∃ p' tm, addBlock' Avro.codec MapOrder.rev exProducer exOldBlock = (p', .ok tm) := by
  have : (match (addBlock' Avro.codec MapOrder.rev exProducer exOldBlock).2 with | .ok _ => true | .error _ => false) = true := by
    decide +kernel
  generalize hr : addBlock' Avro.codec MapOrder.rev exProducer exOldBlock = r at this
  obtain ⟨p', r⟩ := r
  cases r with
  | error e => simp at this
  | ok tm => exact ⟨p', tm, rfl⟩

theorem exOldBlock_wf : WellFormed exProducer.schema exOldBlock exSubs := { exBlock_wf with weight := by decide, number := by decide, lenWeight := by decide +kernel }

/-- The key of a message of `exOldBlock` that is lost. -/
def exLostKey : Bytes := keyOf Avro.codec (.update exOldBlock.hash (str "state/a"))

/-- What is left of `exOldBlock`, its header included. -/
def exLeft (ms : List Msg) : List RMsg := (recv ms).filter (fun m => decide (m.key ≠ exLostKey))

theorem exLeft_block : ∃ old : SentBlock, old.Correct Avro.codec ∧ old.args = exOldBlock ∧ (∀ m ∈ exLeft old.msgs, Copy old.msgs m) ∧
    NeverWhole exForkCfg.tracked old (· ∈ exLeft old.msgs) ∧
    (∃ m ∈ exLeft old.msgs, m.key.head? = some BatchType ∧ blockOf m.key = exHash 2) ∧
    ∃ x ∈ old.msgs, Matters exForkCfg.tracked old.schema old.args x.key ∧ x.key = exLostKey := by
  obtain ⟨p', tm, h⟩ := exOldBlock_ok
  obtain ⟨m0, h0⟩ := produced_exists h exSubs
  let old : SentBlock := ⟨exProducer.schema, exOldBlock, exSubs, m0⟩
  have hold : old.Correct Avro.codec := ⟨h0, exOldBlock_wf⟩
  obtain ⟨b, hb⟩ := bridge Avro.codec_lawful h0 exOldBlock_wf
  have hup : str "state/a" ∈ (blkOf exProducer.schema exOldBlock exSubs b).upd.keys := by
    show str "state/a" ∈ (exOldBlock.updates.filter (fun k _ => ¬ Unrouted exProducer.schema k)).keys
    decide +kernel
  have hp : (blkOf exProducer.schema exOldBlock exSubs b).Part (.update exOldBlock.hash (str "state/a")) := .upd _ hup
  obtain ⟨x, hx, hk⟩ := hb.all _ (.inl hp)
  have hM : Matters exForkCfg.tracked exProducer.schema exOldBlock x.key := by
    rw [hk]
    exact (matters_iff hb.hdr (.inl hp)).mpr rfl
  obtain ⟨y, hy, hyk⟩ := hb.all _ (.inr rfl)
  obtain ⟨m, hm, e1, hc⟩ := recv_all m0 y hy
  refine ⟨old, hold, rfl, fun m hm => recv_copy (ms := m0) (fun _ h => h) (List.mem_filter.mp hm).1, ⟨x, hx, hM, fun m hm => ?_⟩,
    ⟨m, List.mem_filter.mpr ⟨hm, ?_⟩, by rw [e1, hyk, keyOf_head]; rfl, copy_hash Avro.codec_lawful hold hc⟩, x, hx, hM, hk⟩
  · rw [hk]
    show m.key ≠ exLostKey
    simpa using (List.mem_filter.mp hm).2
  · rw [e1, hyk]; decide +kernel

/-- The tree of C86 with the three messages and the header and other messages of a block that is not all there before its own, and the three again
after them. -/
theorem exNoisy_run : ∃ root tree broken received, (∃ sb ∈ tree, root.args.weight < sb.args.weight) ∧ broken ≠ [] ∧
    exStrayPart ∈ received ∧ exStrayHeader ∈ received ∧ exStrayType ∈ received ∧
    (∃ m ∈ received, m.key.head? = some BatchType ∧ blockOf m.key = exHash 2) ∧
    NoisyTree Avro.codec exForkCfg root tree broken received ∧ (tree.length : Int) ≤ 2 * exForkCfg.reorgThreshold ∧
    HeadersFollow root tree received ∧ (∀ s ∈ tree, AllArrive s.msgs received) ∧
    ∃ s0 s, Sys.start exForkCfg (received.map Call.msg) = .ok s0 ∧ CausalSteps Avro.codec exEnv .plain s0 s ∧ s.Drained ∧ Heard exEnv s := by
  obtain ⟨root, tree, received, ⟨ht, hlt⟩, hT, hw, hF, hA, _⟩ := exFork_run
  obtain ⟨old, hold, harg, hleft, -, ⟨mh, hmh, hmh1, hmh2⟩, x, hx, hM, hxk⟩ := exLeft_block
  let stray := [exStrayPart, exStrayHeader, exStrayType]
  have hall : (tree ++ [old]).map (·.args.hash) = [exHash 1, exHash 3, exHash 5, exHash 2] := by
    rw [List.map_append, ht]
    simp only [List.map_cons, List.map_nil, harg]
    rfl
  have hblock : ∀ m ∈ exLeft old.msgs, blockOf m.key = exHash 2 := by
    intro m hm
    have := copy_hash Avro.codec_lawful hold (hleft m hm)
    rw [harg] at this
    exact this
  have hcopy : ∀ m ∈ received, m.key ≠ exLostKey := by
    intro m hm e
    obtain ⟨s, hs, hc⟩ := hT.only m hm
    have h1 : blockOf m.key = s.args.hash := copy_hash Avro.codec_lawful (hT.correct s hs) hc
    have h2 : s.args.hash ∈ tree.map (·.args.hash) := List.mem_map.mpr ⟨s, hs, rfl⟩
    rw [← h1, e, ht] at h2
    revert h2
    decide +kernel
  have hstray : ∀ m ∈ stray, m.key ≠ exLostKey := by
    intro m hm
    simp only [stray, List.mem_cons, List.not_mem_nil, or_false] at hm
    rcases hm with rfl | rfl | rfl <;> decide +kernel
  have hN : NoisyTree Avro.codec exForkCfg root tree [old] ((stray ++ exLeft old.msgs) ++ (received ++ stray)) := by
    refine ⟨hT.toHeaderTree, fun s hs => ?_, ?_, fun s hs => ?_, fun m hm => ?_⟩
    · rcases List.mem_append.mp hs with hs | hs
      · exact hT.correct s hs
      · rw [List.mem_singleton.mp hs]; exact hold
    · rw [hall]; decide
    · rw [List.mem_singleton.mp hs]
      refine ⟨x, hx, hM, fun m hm => ?_⟩
      rw [hxk]
      simp only [List.mem_append] at hm
      rcases hm with (hm | hm) | hm | hm
      · exact hstray m hm
      · simpa using (List.mem_filter.mp hm).2
      · exact hcopy m hm
      · exact hstray m hm
    · simp only [List.mem_append] at hm
      rcases hm with (hm | hm) | hm | hm
      · exact .inr (exStray_noise hall (by decide) m hm)
      · exact .inl ⟨old, by simp, hleft m hm⟩
      · obtain ⟨s, hs, hc⟩ := hT.only m hm
        exact .inl ⟨s, by simp [hs], hc⟩
      · exact .inr (exStray_noise hall (by decide) m hm)
  have hsn : ∀ m ∈ stray, ∀ s ∈ tree, m.key.head? = some BatchType → blockOf m.key ≠ s.args.hash := by
    intro m hm s hs hty e
    rcases (exStray_noise hall (by decide) m hm).other with ⟨_, t, h1, h2⟩ | h
    · rw [hty] at h1; cases h1; exact absurd h2 (by decide)
    · exact h (List.mem_map.mpr ⟨s, by simp [hs], e.symm⟩)
  have hF' : HeadersFollow root tree ((stray ++ exLeft old.msgs) ++ (received ++ stray)) := by
    refine headersFollow_pad (fun m hm s hs hty => ?_) hF
    simp only [List.mem_append] at hm
    rcases hm with (hm | hm) | hm
    · exact hsn m hm s hs hty
    · rw [hblock m hm]
      intro e
      have h2 : s.args.hash ∈ tree.map (·.args.hash) := List.mem_map.mpr ⟨s, hs, rfl⟩
      rw [← e, ht] at h2
      revert h2
      decide
    · exact hsn m hm s hs hty
  have hA' : ∀ s ∈ tree, AllArrive s.msgs ((stray ++ exLeft old.msgs) ++ (received ++ stray)) := by
    intro s hs x hx
    obtain ⟨m, hm, h⟩ := hA s hs x hx
    exact ⟨m, by simp [hm], h⟩
  obtain ⟨s0, hst⟩ : ∃ s0, Sys.start exForkCfg (((stray ++ exLeft old.msgs) ++ (received ++ stray)).map Call.msg) = .ok s0 := ⟨_, rfl⟩
  obtain ⟨s, hs, hd⟩ := (C160_no_fault (env := exEnv) (o := .plain) hN Avro.codec_lawful hw hst .refl).2
  exact ⟨root, tree, [old], (stray ++ exLeft old.msgs) ++ (received ++ stray), hlt, by simp, by simp [stray], by simp [stray], by simp [stray],
    ⟨mh, by simp [hmh], hmh1, hmh2⟩, hN, hw, hF', hA', s0, s, hst, causal_of_none (fun _ => rfl) hs, hd, fun t _ n hn => by simp [exEnv] at hn⟩

/-- The chain of C44 with the three messages and what is left of the last processed block before its messages. -/
theorem exNoisyChain : ∃ chain broken received, chain.length = 3 ∧ broken ≠ [] ∧ exStrayHeader ∈ received ∧
    (∃ m ∈ received, m.key.head? = some BatchType ∧ blockOf m.key = exHash 2) ∧ NoisyChain Avro.codec exSysCfg 4 chain broken received ∧
    (∀ s ∈ chain, AllArrive s.msgs received) ∧
    ∃ s0 s, Sys.start exSysCfg (received.map Call.msg) = .ok s0 ∧ Sys.Steps Avro.codec exEnv .plain s0 s ∧ s.Drained ∧ Genuine exEnv s := by
  obtain ⟨chain, received, ht, hE, hA, _⟩ := exSys
  obtain ⟨old, hold, harg, hleft, -, ⟨mh, hmh, hmh1, hmh2⟩, x, hx, hM, hxk⟩ := exLeft_block
  have hall : (chain ++ [old]).map (·.args.hash) = [exHash 1, exHash 3, exHash 4, exHash 2] := by
    rw [List.map_append, ht]
    simp only [List.map_cons, List.map_nil, harg]
    rfl
  let stray := [exStrayPart, exStrayHeader, exStrayType]
  have hstray : ∀ m ∈ stray, m.key ≠ exLostKey := by
    intro m hm
    simp only [stray, List.mem_cons, List.not_mem_nil, or_false] at hm
    rcases hm with rfl | rfl | rfl <;> decide +kernel
  have hN : NoisyChain Avro.codec exSysCfg 4 chain [old] ((stray ++ exLeft old.msgs) ++ received) := by
    refine ⟨⟨fun s hs => ?_, ?_, fun s hs => ?_, fun m hm => ?_⟩, hE.links, hE.hashes, hE.whitelist⟩
    · rcases List.mem_append.mp hs with hs | hs
      · exact hE.correct s hs
      · rw [List.mem_singleton.mp hs]; exact hold
    · rw [hall]; decide
    · rw [List.mem_singleton.mp hs]
      refine ⟨x, hx, hM, fun m hm => ?_⟩
      rw [hxk]
      simp only [List.mem_append] at hm
      rcases hm with (hm | hm) | hm
      · exact hstray m hm
      · simpa using (List.mem_filter.mp hm).2
      · intro e
        obtain ⟨s, hs, hc⟩ := hE.only m hm
        have h1 : blockOf m.key = s.args.hash := copy_hash Avro.codec_lawful (hE.correct s hs) hc
        have h2 : s.args.hash ∈ chain.map (·.args.hash) := List.mem_map.mpr ⟨s, hs, rfl⟩
        rw [← h1, e, ht] at h2
        revert h2
        decide +kernel
    · simp only [List.mem_append] at hm
      rcases hm with (hm | hm) | hm
      · exact .inr (exStray_noise hall (by decide) m hm)
      · exact .inl ⟨old, by simp, hleft m hm⟩
      · obtain ⟨s, hs, hc⟩ := hE.only m hm
        exact .inl ⟨s, by simp [hs], hc⟩
  have hA' : ∀ s ∈ chain, AllArrive s.msgs ((stray ++ exLeft old.msgs) ++ received) := by
    intro s hs x hx
    obtain ⟨m, hm, h⟩ := hA s hs x hx
    exact ⟨m, by simp [hm], h⟩
  obtain ⟨s0, hst⟩ : ∃ s0, Sys.start exSysCfg (((stray ++ exLeft old.msgs) ++ received).map Call.msg) = .ok s0 := ⟨_, rfl⟩
  obtain ⟨s, hs, hd⟩ := (C160_chain_no_fault (env := exEnv) (o := .plain) hN Avro.codec_lawful hst .refl).2
  exact ⟨chain, [old], (stray ++ exLeft old.msgs) ++ received, by simpa using congrArg List.length ht, by simp, by simp [stray],
    ⟨mh, by simp [hmh], hmh1, hmh2⟩, hN, hA', s0, s, hst, hs, hd, by intro t n hn; simp [exEnv] at hn⟩

/-- The same block as that of `exStrayPart`, with a header that can be decoded: it waits for a sub-batch. -/
def exStrayBegins : RMsg := ⟨BatchType :: (exHash 9).bytes, Avro.codec.encBatch ⟨6, [9], exHash 1, GMap.empty.insert (str "a/") { subbatch := exHash 8 }⟩, 0, []⟩

/-- **C160**, why such messages must not begin a block: the part that is harmless without the header of its block takes the consumer down after it. -/
theorem C160_needs_noHeader {mp : MP} (hn : newMP exForkCfg = .ok mp) :
    (∃ mp', mp.run Avro.codec exEnv [exStrayPart] = .ok mp') ∧
    mp.run Avro.codec exEnv [exStrayBegins, exStrayPart] = .error .panic := by
  have h1 : (match (newMP exForkCfg).toOption.map (fun mp => mp.run Avro.codec exEnv [exStrayPart]) with | some (.ok _) => true | _ => false) = true := by
    decide +kernel
  have h2 : (match (newMP exForkCfg).toOption.map (fun mp => mp.run Avro.codec exEnv [exStrayBegins, exStrayPart]) with
      | some (.error .panic) => true | _ => false) = true := by decide +kernel
  rw [hn] at h1 h2
  simp only [Except.toOption, Option.map_some] at h1 h2
  constructor
  · split at h1
    · rename_i x e; exact ⟨x, Option.some.inj e⟩
    · cases h1
  · split at h2
    · rename_i e; exact Option.some.inj e
    · cases h2

end Verif
