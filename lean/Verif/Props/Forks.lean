import Verif.Props.System
import Verif.Props.Recent
import Verif.Proofs.Truncate
/-!
# C86: the whole consumer, with forks
-/
namespace Verif
open Spec

variable {C : Codec} {env : Env} {o : MapOrder}

/-- A tree of blocks above the last processed block. -/
structure Spec.HeaderTree (cfg : Config) (root : SentBlock) (tree : List SentBlock) : Prop where
  /-- the last processed block is one of them -/
  mem : root ∈ tree
  hash : root.args.hash = cfg.lastHash
  weight : root.args.weight = cfg.lastWeight
  heavy : 0 < root.args.weight
  low : root.args.parentHash ∉ tree.map (·.args.hash)
  /-- all others have their parents in the tree, which are lighter and one lower -/
  parents : ∀ s ∈ tree, s = root ∨ ∃ p ∈ tree, p.args.hash = s.args.parentHash ∧ s.args.number = p.args.number + 1 ∧ p.args.weight < s.args.weight
  /-- hashes do not collide -/
  hashes : (Hash.zero :: tree.map (·.args.hash)).Nodup
  /-- the whitelist does not forbid them -/
  whitelist : ∀ s ∈ tree, ∀ h, cfg.whitelist.get? (heightKey s.args.number) = some h → h = s.args.hash

/-- The messages of a tree of blocks. -/
structure Spec.SentTree (C : Codec) (cfg : Config) (root : SentBlock) (tree : List SentBlock) (received : List RMsg) : Prop
    extends HeaderTree cfg root tree where
  /-- produced by successful `AddBlock` and `SendBatch` calls -/
  correct : ∀ s ∈ tree, s.Correct C
  /-- only messages of these blocks are received -/
  only : ∀ m ∈ received, ∃ s ∈ tree, Copy s.msgs m

/-- The header of a block is not received before all messages of its parent. -/
def Spec.HeadersFollow (root : SentBlock) (tree : List SentBlock) (received : List RMsg) : Prop :=
  ∀ l1 m l2, received = l1 ++ m :: l2 → m.key.head? = some BatchType → ∀ s ∈ tree, blockOf m.key = s.args.hash →
    s = root ∨ ∃ p ∈ tree, p.args.hash = s.args.parentHash ∧ AllArrive p.msgs l1

/-- The headers of the tree. -/
def treeWorld (root : SentBlock) (tree : List SentBlock) : World where
  parent h := ((tree.find? (fun s => s.args.hash == h)).map (·.args.parentHash)).getD Hash.zero
  number h := ((tree.find? (fun s => s.args.hash == h)).map (·.args.number)).getD (if h = root.args.parentHash then root.args.number - 1 else 0)
  weight h := ((tree.find? (fun s => s.args.hash == h)).map (·.args.weight.toNat)).getD 0

section
variable {cfg : Config} {root : SentBlock} {tree : List SentBlock} {received : List RMsg}

theorem Spec.SentTree.supplied (h : SentTree C cfg root tree received) : Supplied C tree received :=
  ⟨h.correct, (List.nodup_cons.mp h.hashes).2, h.only⟩

theorem Spec.HeaderTree.world (h : HeaderTree cfg root tree) (hw0 : ∀ s ∈ tree, 0 ≤ s.args.weight) {pb : PB} (hpb : ∃ s ∈ tree, HeadOf s pb) :
    ((treeWorld root tree).Has pb ∧ pb.hash ≠ Hash.zero) ∧ (treeWorld root tree).Heavier pb ∧ (treeWorld root tree).Numbered pb ∧
      ¬ Forbidden cfg.whitelist pb ∧ pb.hash ∈ tree.map (·.args.hash) := by
  obtain ⟨s, hs, he⟩ := hpb
  have hd := (List.nodup_cons.mp h.hashes)
  have hf := find_hash hd.2 hs
  have hw := he.weight
  have hmem : s.args.hash ∈ tree.map (·.args.hash) := List.mem_map.mpr ⟨s, hs, rfl⟩
  refine ⟨⟨⟨?_, ?_, ?_⟩, ?_⟩, ?_, ?_, ?_, by rw [he.hash]; exact hmem⟩
  · rw [he.parent, he.hash]; simp [treeWorld, hf]
  · rw [he.number, he.hash]; simp [treeWorld, hf]
  · rw [he.hash]
    have : pb.weight = s.args.weight.toNat := by omega
    simp [treeWorld, hf, this]
  · rw [he.hash]
    intro e
    exact hd.1 (e ▸ hmem)
  · unfold World.Heavier
    rw [he.hash, he.parent]
    rcases h.parents s hs with e | ⟨p, hp, e1, e2, e3⟩
    · subst e
      have hn : tree.find? (fun x => x.args.hash == s.args.parentHash) = none := by
        rw [List.find?_eq_none]
        intro x hx e
        exact h.low (List.mem_map.mpr ⟨x, hx, by simpa using e⟩)
      have := h.heavy
      simp only [treeWorld, hn, hf, Option.map_none, Option.getD_none, Option.map_some, Option.getD_some]
      omega
    · have hg := find_hash hd.2 hp
      rw [e1] at hg
      have := hw0 p hp
      simp only [treeWorld, hg, hf, Option.map_some, Option.getD_some]
      omega
  · unfold World.Numbered
    rw [he.hash, he.parent]
    rcases h.parents s hs with e | ⟨p, hp, e1, e2, e3⟩
    · subst e
      have hn : tree.find? (fun x => x.args.hash == s.args.parentHash) = none := by
        rw [List.find?_eq_none]
        intro x hx e
        exact h.low (List.mem_map.mpr ⟨x, hx, by simpa using e⟩)
      simp only [treeWorld, hn, hf, Option.map_none, Option.getD_none, Option.map_some, Option.getD_some, if_true]
      omega
    · have hg := find_hash hd.2 hp
      rw [e1] at hg
      simp only [treeWorld, hg, hf, Option.map_some, Option.getD_some]
      omega
  · rintro ⟨x, hx, hne⟩
    rw [he.number] at hx
    exact hne ((h.whitelist s hs x hx).trans he.hash.symm)

theorem Spec.SentTree.world (h : SentTree C cfg root tree received) {pb : PB} (hpb : ∃ s ∈ tree, Exact cfg.tracked s.schema s.args s.subs pb) :
    ((treeWorld root tree).Has pb ∧ pb.hash ≠ Hash.zero) ∧ (treeWorld root tree).Heavier pb ∧ (treeWorld root tree).Numbered pb ∧
      ¬ Forbidden cfg.whitelist pb ∧ pb.hash ∈ tree.map (·.args.hash) := by
  obtain ⟨s, hs, he⟩ := hpb
  exact h.toHeaderTree.world (fun s hs => (h.correct s hs).2.weight) ⟨s, hs, he.number, he.weight, he.hash, he.parent⟩

theorem Spec.HeaderTree.rootWeight (h : HeaderTree cfg root tree) : cfg.lastWeight = (treeWorld root tree).weight cfg.lastHash := by
  have hf := find_hash (List.nodup_cons.mp h.hashes).2 h.mem
  rw [h.hash] at hf
  have := h.weight
  simp only [treeWorld, hf, Option.map_some, Option.getD_some]
  omega

theorem Spec.HeaderTree.rootHash (h : HeaderTree cfg root tree) : cfg.lastHash ≠ Hash.zero := by
  intro e
  refine (List.nodup_cons.mp h.hashes).1 ?_
  rw [← e, ← h.hash]
  exact List.mem_map.mpr ⟨root, h.mem, rfl⟩

theorem Spec.HeaderTree.inU (h : HeaderTree cfg root tree) : cfg.lastHash ∈ tree.map (·.args.hash) := by
  rw [← h.hash]; exact List.mem_map.mpr ⟨root, h.mem, rfl⟩

theorem emitted_grows {mp0 mp mp' : MP} {a b : List RMsg} (hn : newMP cfg = .ok mp0) (h1 : mp0.run C env a = .ok mp)
    (h2 : mp0.run C env (a ++ b) = .ok mp') : ∃ es, mp'.emitted = mp.emitted ++ es := by
  obtain ⟨m1, h3, h4⟩ := run_append h2
  rw [h1] at h3
  cases h3
  exact fed_grows ((Base.newMP hn).run h1) (run_fed h4)

/-- If no eviction request is acted on before the last message, blocks are emitted after their parents. -/
theorem Spec.SentTree.order (h : SentTree C cfg root tree received) (hC : C.Lawful) (hf : HeadersFollow root tree received) {mp0 : MP}
    (hn : newMP cfg = .ok mp0) {ms rest : List RMsg} (hms : received = ms ++ rest) {mp : MP} (hr : mp0.run C env ms = .ok mp)
    (hq : ∀ l1 m l2 mp1, ms = l1 ++ m :: l2 → mp0.run C env l1 = .ok mp1 → ∀ t, t < mp1.tick → env.evict t = []) :
    ParentsFirst cfg.lastHash mp.emitted := by
  induction ms using snoc_induction generalizing rest mp with
  | nil =>
    cases hr
    have h0 : mp0.emitted = [] := by
      unfold newMP at hn
      split at hn
      · cases hn
      · cases hn; rfl
    intro l1 b l2 e
    rw [h0] at e
    simp at e
  | snoc l m ih =>
    obtain ⟨mp1, hr1, hr2⟩ := run_append hr
    obtain ⟨es, hes⟩ := emitted_grows hn hr1 hr
    have ih := ih (rest := m :: rest) (by rw [hms]; simp) hr1 (fun l1 x l2 mp1 e => hq l1 x (l2 ++ [m]) mp1 (by rw [e]; simp))
    have hparent : ∀ b ∈ es, b.hash = cfg.lastHash ∨ ∃ a ∈ mp1.emitted, a.hash = b.parentHash := by
      intro b hb
      have hbm : b ∈ mp.emitted := by rw [hes]; simp [hb]
      obtain ⟨hd, _, hof, _⟩ := ((prov_parts C env (· ∈ l ++ [m]) (run_ok_len hr) cfg.tracked cfg.frp).emitted hn
        (by intro s o hs; simp at hs) (fun m hm => hm) hr b hbm).1.head
      obtain ⟨s, hs, he⟩ := h.supplied.emitted hC hn (fun x hx => by rw [hms]; simp at hx ⊢; rcases hx with hx | hx <;> simp [hx]) hr hbm
      obtain ⟨a, c, e⟩ := List.append_of_mem hof.mem
      rcases hf a hd (c ++ rest) (by rw [hms, e]; simp) hof.type s hs (hof.block.trans he.hash) with hroot | ⟨p, hp, e1, hall⟩
      · left; rw [he.hash, hroot, h.hash]
      · right
        have hsub : ∀ x ∈ a, x ∈ l := by
          intro x hx
          rcases List.append_eq_append_iff.mp e with ⟨u, hu1, hu2⟩ | ⟨u, hu1, hu2⟩
          · rcases u with _ | ⟨y, u⟩
            · simp at hu1; rw [← hu1]; exact hx
            · simp at hu2
          · rw [hu1]; simp [hx]
        have hk : Keeps (env.upTo mp1.tick) p.args.number := by
          intro t n hn'
          unfold Env.upTo at hn'
          simp only [] at hn'
          split at hn'
          · rename_i ht
            rw [hq l m [] mp1 rfl hr1 t ht] at hn'
            simp at hn'
          · simp at hn'
        obtain ⟨pb, hpb, hex⟩ := C01_delivered hC (h.correct p hp).1 (h.correct p hp).2 hn hk
          (faithful_of_blocks hC h.correct h.supplied.inj (fun x hx => .inl (h.only x (by rw [hms]; simp [hx]))) hp)
          (fun x hx => by obtain ⟨y, hy, hxy⟩ := hall x hx; exact ⟨y, hsub y hy, hxy⟩) (run_upTo hr1 (Nat.le_refl _))
        exact ⟨pb, hpb, by rw [hex.hash, e1, he.parent]⟩
    intro l1 b l2 e
    rw [hes] at e
    rcases List.append_eq_append_iff.mp e with ⟨u, hu1, hu2⟩ | ⟨u, hu1, hu2⟩
    · rcases hparent b (by rw [hu2]; simp) with e | ⟨a, ha, e⟩
      · exact .inl e
      · exact .inr ⟨a, by rw [hu1]; simp [ha], e⟩
    · rcases u with _ | ⟨y, u⟩
      · simp at hu2
        rcases hparent b (by rw [← hu2]; simp) with e | ⟨a, ha, e⟩
        · exact .inl e
        · exact .inr ⟨a, by rw [hu1] at ha; simpa using ha, e⟩
      · simp at hu2
        obtain ⟨rfl, _⟩ := hu2
        exact ih l1 b u hu1

theorem parentsFirst_prefix {root : Hash} {a b : List PB} (h : ParentsFirst root (a ++ b)) : ParentsFirst root a := by
  intro l1 x l2 e
  exact h l1 x (l2 ++ b) (by rw [e]; simp)

theorem Spec.CausalSteps.steps {s0 s : Sys} (h : CausalSteps C env o s0 s) : Sys.Steps C env o s0 s := by
  induction h with
  | refl => exact .refl
  | step _ h _ ih => exact .step ih h

theorem call_msg_inj {a b : List RMsg} (h : a.map Call.msg = b.map Call.msg) : a = b := by
  induction a generalizing b with
  | nil => cases b with
    | nil => rfl
    | cons y b => simp at h
  | cons x a ih =>
    cases b with
    | nil => simp at h
    | cons y b =>
      simp only [List.map_cons, List.cons.injEq, Call.msg.injEq] at h
      rw [h.1, ih h.2]

/-- The ordering layer after handling emitted blocks. -/
theorem Spec.SentTree.handled (h : SentTree C cfg root tree received) (hwin : (tree.length : Int) ≤ 2 * cfg.reorgThreshold) {omp0 omp : OMP}
    (ho : newOMP cfg = .ok omp0) {ds : List PB} (hds : ∀ pb ∈ ds, ∃ s ∈ tree, Exact cfg.tracked s.schema s.args s.subs pb)
    (hpf : ParentsFirst cfg.lastHash ds) (hr : omp0.run o (ds.map OOp.block) = .ok omp) :
    (∀ n, OOut.evictOlder n ∉ omp.log) ∧ (ds ≠ [] → FirstHeaviest ds omp.lastHash) := by
  obtain ⟨s', g1, g2⟩ := parents_first_run (o := o) (U := tree.map (·.args.hash)) h.rootHash h.rootWeight (fun b hb => (h.world (hds b hb)).1)
    (fun b hb => (h.world (hds b hb)).2.1) (fun b hb => (h.world (hds b hb)).2.2.1) (by simpa using hwin) h.inU
    (fun b hb => (h.world (hds b hb)).2.2.2.2) (fun b hb => (h.world (hds b hb)).2.2.2.1) hpf ho
  rw [hr] at g1
  cases g1
  exact ⟨g2.calm, fun hne => g2.head.resolve_left (fun e => hne e.1)⟩

/-- In the calls before the last one no request was acted on. -/
def Undisturbed (C : Codec) (env : Env) (cfg : Config) (calls : List Call) : Prop :=
  ∀ mp0 ms, newMP cfg = .ok mp0 → calls = ms.map Call.msg →
    ∀ l1 m l2 mp1, ms = l1 ++ m :: l2 → mp0.run C env l1 = .ok mp1 → ∀ t, t < mp1.tick → env.evict t = []

theorem Spec.SentTree.consequences (h : SentTree C cfg root tree received) (hC : C.Lawful) (hwin : (tree.length : Int) ≤ 2 * cfg.reorgThreshold)
    (hf : HeadersFollow root tree received) {s0 s : Sys}
    (hst : Sys.start cfg (received.map Call.msg) = .ok s0) (hs : Sys.Steps C env o s0 s) (key : Undisturbed C env cfg s.calls) :
    ParentsFirst cfg.lastHash s.mp.emitted ∧ (∀ n, OOut.evictOlder n ∉ s.omp.log) ∧
      (blocksOf s.ops ≠ [] → FirstHeaviest (blocksOf s.ops) s.omp.lastHash) := by
  obtain ⟨mp0, omp0, ms, ds, hn, ho, ⟨rest, h1, h2⟩, h3, h4, h5, h6⟩ := h.supplied.inside hC hst hs
  have hcalls : s.calls = ms.map Call.msg := by
    have := ((Piped.start hst).steps hs).consists.calls
    rw [h1, h2, List.map_append] at this
    exact (List.append_cancel_right this).symm
  have hpf := h.order hC hf hn h1 h3 (key mp0 ms hn hcalls)
  have hds : blocksOf s.ops = ds := by rw [h4, blocksOf_map]
  refine ⟨hpf, ?_⟩
  rw [hds]
  refine h.handled hwin ho ?_ (parentsFirst_prefix (by rw [h6] at hpf; exact hpf)) h5
  intro pb hpb
  exact h.supplied.emitted hC hn (fun m hm => by rw [h1]; simp [hm]) h3 (by rw [h6]; simp [hpb])

/-- What holds in every state: blocks were emitted after their parents, and no request was sent. -/
theorem Spec.SentTree.inside (h : SentTree C cfg root tree received) (hC : C.Lawful) (hwin : (tree.length : Int) ≤ 2 * cfg.reorgThreshold)
    (hf : HeadersFollow root tree received) {s0 s : Sys}
    (hst : Sys.start cfg (received.map Call.msg) = .ok s0) (hs : CausalSteps C env o s0 s) :
    ParentsFirst cfg.lastHash s.mp.emitted ∧ (∀ n, OOut.evictOlder n ∉ s.omp.log) ∧
      (blocksOf s.ops ≠ [] → FirstHeaviest (blocksOf s.ops) s.omp.lastHash) := by
  refine h.consequences hC hwin hf hst hs.steps ?_
  induction hs with
  | refl =>
    intro mp0 ms _ hc l1 m l2 mp1 e
    have : s0.calls = [] := by
      unfold Sys.start at hst
      obtain ⟨mp, _, hst⟩ := bind_ok.mp hst
      obtain ⟨omp, _, hst⟩ := bind_ok.mp hst
      cases hst; rfl
    rw [this] at hc
    have := (List.map_eq_nil_iff.mp hc.symm)
    rw [this] at e
    simp at e
  | step hs hstep hheard ih =>
    rename_i s1 s2
    cases hstep with
    | call ht hout hc =>
      rename_i c cs mp
      have hc1 := (h.consequences hC hwin hf hst hs.steps ih).2.1
      have hh := hheard (by simp)
      obtain ⟨mp0', omp0, ms1, ds, hn', ho, ⟨rest, h1, h2⟩, h3, h4, h5, h6⟩ := h.supplied.inside hC hst hs.steps
      have hcalls : s1.calls = ms1.map Call.msg := by
        have := ((Piped.start hst).steps hs.steps).consists.calls
        rw [h1, h2, List.map_append] at this
        exact (List.append_cancel_right this).symm
      intro mp0 ms hn hcs l1 m l2 mp1 e hr t htick
      rw [hn'] at hn
      cases hn
      have hcs : s1.calls ++ [c] = ms.map Call.msg := hcs
      rw [hcalls, e] at hcs
      rw [List.map_append, List.map_cons] at hcs
      rcases l2 with _ | ⟨y, l2⟩
      · rw [List.map_nil] at hcs
        have := call_msg_inj (List.append_inj_left' hcs rfl)
        subst this
        rw [h3] at hr
        cases hr
        cases hev : env.evict t with
        | nil => rfl
        | cons n rest => exact (hc1 n (hh t htick n (by rw [hev]; simp))).elim
      · obtain ⟨l3, z, e3⟩ : ∃ l3 z, y :: l2 = l3 ++ [z] := ⟨(y :: l2).dropLast, (y :: l2).getLast (List.cons_ne_nil _ _), (List.dropLast_concat_getLast (List.cons_ne_nil _ _)).symm⟩
        rw [e3, List.map_append] at hcs
        have hcs : ms1.map Call.msg ++ [c] = (l1 ++ m :: l3).map Call.msg ++ [Call.msg z] := by rw [hcs]; simp
        have := call_msg_inj (List.append_inj_left' hcs rfl)
        exact ih mp0' ms1 hn' hcalls l1 m l3 mp1 this hr t htick
    | sendBlock h1 h2 => exact ih
    | sendReorg h1 h2 => exact ih
    | sendWaiter h1 => exact ih
    | block h1 h2 => exact ih
    | reorg h1 h2 => exact ih

/-- **C86**, while running: at every moment the head of the subscribers is the first-handled block of maximal weight among those handled, and
nothing was asked to be dropped. -/
theorem C86_head (h : SentTree C cfg root tree received) (hC : C.Lawful) (hwin : (tree.length : Int) ≤ 2 * cfg.reorgThreshold)
    (hf : HeadersFollow root tree received) {s0 s : Sys} (hst : Sys.start cfg (received.map Call.msg) = .ok s0)
    (hs : CausalSteps C env o s0 s) (hne : blocksOf s.ops ≠ []) :
    FirstHeaviest (blocksOf s.ops) s.omp.lastHash ∧ (∀ n, OOut.evictOlder n ∉ s.omp.log) :=
  ⟨(h.inside hC hwin hf hst hs).2.2 hne, (h.inside hC hwin hf hst hs).2.1⟩

theorem replays_sent {start : Hash} {log : List OOut} {base : Hash} {chain : List PB} (h : Replays start log base chain) :
    ∀ b ∈ chain, ∃ added removed, .update added removed ∈ log ∧ b ∈ added := by
  induction h with
  | start => simp
  | step _ hf ih =>
    rename_i log x b0 b1 c0 c1 _
    have old : ∀ b ∈ c0, ∃ added removed, .update added removed ∈ log ++ [x] ∧ b ∈ added := by
      intro b hb
      obtain ⟨a, r, h1, h2⟩ := ih b hb
      exact ⟨a, r, by simp [h1], h2⟩
    cases hf with
    | within h1 h2 h3 =>
      intro b hb
      rcases List.mem_append.mp hb with hb | hb
      · exact old b (by simp [hb])
      · exact ⟨_, _, List.mem_append_right _ (List.mem_singleton.mpr rfl), hb⟩
    | beyond h1 h2 h3 h4 h5 =>
      intro b hb
      exact ⟨_, _, List.mem_append_right _ (List.mem_singleton.mpr rfl), hb⟩
    | reorg => simp
    | evict => exact old

/-- **C86**, at the end: when all messages have arrived (in any order within the condition, any number of times) and everything has been handled,
the subscribers, having applied all updates, hold a chain of blocks exactly as produced that ends in a block of maximal weight of
the whole tree. -/
theorem C86_end (h : SentTree C cfg root tree received) (hC : C.Lawful) (hwin : (tree.length : Int) ≤ 2 * cfg.reorgThreshold)
    (hf : HeadersFollow root tree received) (ha : ∀ s ∈ tree, AllArrive s.msgs received) {s0 s : Sys}
    (hst : Sys.start cfg (received.map Call.msg) = .ok s0) (hs : CausalSteps C env o s0 s) (hd : s.Drained) (hg : Heard env s) :
    ∃ base chain top, Replays cfg.lastHash s.omp.log base chain ∧ Linked base chain ∧ endOf base chain = top.args.hash ∧
      top ∈ tree ∧ (∀ sb ∈ tree, sb.args.weight ≤ top.args.weight) ∧
      ∀ b ∈ chain, ∃ sb ∈ tree, Exact cfg.tracked sb.schema sb.args sb.subs b := by
  have hin := h.inside hC hwin hf hst hs
  obtain ⟨mp0, omp0, ms, ds, hn, ho, ⟨rest, h1, h2⟩, h3, h4, h5, h6⟩ := h.supplied.inside hC hst hs.steps
  rw [hd.1] at h2
  have hrest : rest = [] := List.map_eq_nil_iff.mp h2.symm
  subst hrest
  rw [List.append_nil] at h1
  subst h1
  rw [hd.2.1, hd.2.2.1] at h6
  have h6 : s.mp.emitted = ds := by simpa [blocksSent] using h6
  have hds : blocksOf s.ops = ds := by rw [h4, blocksOf_map]
  have hex : ∀ pb ∈ ds, ∃ s ∈ tree, Exact cfg.tracked s.schema s.args s.subs pb := fun pb hpb =>
    h.supplied.emitted hC hn (fun m hm => hm) h3 (by rw [h6]; exact hpb)
  have hk : ∀ n, Keeps (env.upTo s.mp.tick) n := by
    intro n t x hx
    unfold Env.upTo at hx
    simp only [] at hx
    split at hx
    · rename_i ht
      exact (hin.2.1 x (hg t ht x hx)).elim
    · simp at hx
  have hall : ∀ sb ∈ tree, ∃ pb ∈ ds, Exact cfg.tracked sb.schema sb.args sb.subs pb := by
    intro sb hsb
    obtain ⟨pb, hpb, he⟩ := C01_delivered hC (h.correct sb hsb).1 (h.correct sb hsb).2 hn (hk _)
      (faithful_of_blocks hC h.correct h.supplied.inj (fun m hm => .inl (h.only m hm)) hsb) (ha sb hsb) (run_upTo h3 (Nat.le_refl _))
    exact ⟨pb, by rw [← h6]; exact hpb, he⟩
  have hne : blocksOf s.ops ≠ [] := by
    obtain ⟨pb, hpb, _⟩ := hall root h.mem
    rw [hds]
    intro e
    rw [e] at hpb
    simp at hpb
  obtain ⟨l1, b, l2, e, e1, e2, _⟩ := hin.2.2 hne
  rw [hds] at e e2
  obtain ⟨top, htop, hx⟩ := hex b (by rw [e]; simp)
  obtain ⟨base, chain, g1, g2, g3⟩ := C28_continuous (o := o) (W := treeWorld root tree) (ops := ds.map OOp.block) (s0 := omp0) h.rootHash
    (by rw [blocksOf_map]; exact fun b hb => (h.world (hex b hb)).1) ho h5
  refine ⟨base, chain, top, g1, g2, by rw [g3, ← e1, hx.hash], htop, ?_, ?_⟩
  · intro sb hsb
    obtain ⟨pb, hpb, he⟩ := hall sb hsb
    have := e2 pb hpb
    have h8 := he.weight
    have h9 := hx.weight
    omega
  · intro x hx
    obtain ⟨a, r, k1, k2⟩ := replays_sent g1 x hx
    exact hex x (by rw [← h6]; exact C43_updates hst hs.steps k1 (List.mem_append_left _ k2))

/-- **C86**, no faults: whatever the order of the messages, no goroutine is ever about to fault, and every execution can be completed. -/
theorem C86_no_fault (h : SentTree C cfg root tree received) (hC : C.Lawful) (hwin : (tree.length : Int) ≤ 2 * cfg.reorgThreshold)
    {s0 s : Sys} (hst : Sys.start cfg (received.map Call.msg) = .ok s0) (hs : Sys.Steps C env o s0 s) :
    ¬ Faulty C env o s ∧ ∃ s', Sys.Steps C env o s s' ∧ s'.Drained := by
  have key : ∀ s, Sys.Steps C env o s0 s → ¬ Faulty C env o s := by
    intro s hs
    refine h.supplied.calm hC hst hs ?_
    intro omp0 ds ho hds
    exact C35_partial (o := o) h.rootHash h.rootWeight (fun b hb => (h.world (hds b hb)).1) (fun b hb => (h.world (hds b hb)).2.1)
      (fun b hb => (h.world (hds b hb)).2.2.1) ⟨tree.map (·.args.hash), by simpa using hwin, h.inU, fun b hb => (h.world (hds b hb)).2.2.2.2⟩ ho
  refine ⟨key s hs, ?_⟩
  obtain ⟨s', h1, h2⟩ := s.drains (C := C) (env := env) (o := o) ((Piped.start (C := C) (env := env) (o := o) hst).steps hs).room
  refine ⟨s', h1, h2.resolve_right (key s' ?_)⟩
  clear h2
  induction h1 with
  | refl => exact hs
  | step _ h ih => exact .step ih h

/-- **C86**, trees of any size: as long as the blocks are emitted so that each branches off at a recent block (C37), the head is the first-handled
block of maximal weight among those handled. -/
theorem C86_any_length (h : SentTree C cfg root tree received) (hC : C.Lawful) {s0 s : Sys}
    (hst : Sys.start cfg (received.map Call.msg) = .ok s0) (hs : Sys.Steps C env o s0 s)
    (htr : AllTracked (2 * cfg.reorgThreshold) cfg.lastHash s.mp.emitted) (hne : blocksOf s.ops ≠ []) :
    FirstHeaviest (blocksOf s.ops) s.omp.lastHash := by
  obtain ⟨mp0, omp0, ms, ds, hn, ho, ⟨rest, h1, h2⟩, h3, h4, h5, h6⟩ := h.supplied.inside hC hst hs
  have hds : blocksOf s.ops = ds := by rw [h4, blocksOf_map]
  rw [hds] at hne ⊢
  have hex : ∀ pb ∈ ds, ∃ s ∈ tree, Exact cfg.tracked s.schema s.args s.subs pb := fun pb hpb =>
    h.supplied.emitted hC hn (fun m hm => by rw [h1]; simp [hm]) h3 (by rw [h6]; simp [hpb])
  obtain ⟨s', g1, g2⟩ := C37_any_length (o := o) (W := treeWorld root tree) (bs := ds) h.rootHash h.rootWeight
    (fun b hb => (h.world (hex b hb)).1.1) (fun b hb => (h.world (hex b hb)).2.1) (fun b hb => (h.world (hex b hb)).2.2.1)
    (fun b hb => (h.world (hex b hb)).2.2.2.1) (fun l1 b l2 e => htr l1 b (l2 ++ (s.ch ++ blocksSent s.out)) (by rw [h6, e]; simp)) hne ho
  rw [h5] at g1
  cases g1
  exact g2

end

/-! ## Example -/

theorem causal_of_none (he : ∀ t, env.evict t = []) {s0 s : Sys} (h : Sys.Steps C env o s0 s) : CausalSteps C env o s0 s := by
  induction h with
  | refl => exact .refl
  | step _ h ih => exact .step ih h (fun _ t _ n hn => by rw [he] at hn; simp at hn)

/-- A heavier fork of `exNext`. -/
def exForkBlock : BlockArgs := { exBlock with number := 6, hash := exHash 5, parentHash := exHash 1, weight := 320 }

theorem exForkBlock_ok : ∃ p' tm, addBlock' Avro.codec MapOrder.rev exProducer exForkBlock = (p', .ok tm) := by
  have : (match (addBlock' Avro.codec MapOrder.rev exProducer exForkBlock).2 with | .ok _ => true | .error _ => false) = true := by
    decide +kernel
  generalize hr : addBlock' Avro.codec MapOrder.rev exProducer exForkBlock = r at this
  obtain ⟨p', r⟩ := r
  cases r with
  | error e => simp at this
  | ok tm => exact ⟨p', tm, rfl⟩

theorem exForkBlock_wf : WellFormed exProducer.schema exForkBlock exSubs := { exBlock_wf with weight := by decide, number := by decide, lenWeight := by decide +kernel }

/-- `exBlock` is the last block processed. -/
def exForkCfg : Config := { exCfg with lastHash := exHash 1, lastWeight := 300, lastEmittedNum := 5, reorgThreshold := 2 }

/-- C86: `exBlock` again, `exNext`, the heavier fork and `exNext` again; the subscribers end at the fork. -/
theorem exFork_run : ∃ root tree received, (tree.map (·.args.hash) = [exHash 1, exHash 3, exHash 5] ∧ ∃ sb ∈ tree, root.args.weight < sb.args.weight) ∧ SentTree Avro.codec exForkCfg root tree received ∧ (tree.length : Int) ≤ 2 * exForkCfg.reorgThreshold ∧
    HeadersFollow root tree received ∧ (∀ s ∈ tree, AllArrive s.msgs received) ∧
    ∃ s0 s base chain, Sys.start exForkCfg (received.map Call.msg) = .ok s0 ∧ CausalSteps Avro.codec exEnv .plain s0 s ∧ s.Drained ∧ Heard exEnv s ∧
      Replays exForkCfg.lastHash s.omp.log base chain ∧ endOf base chain = exForkBlock.hash := by
  obtain ⟨m1, h1⟩ := exBlock_produced
  obtain ⟨p', tm, h⟩ := exNext_ok
  obtain ⟨m2, h2⟩ := produced_exists h exSubs
  obtain ⟨p', tm, h⟩ := exForkBlock_ok
  obtain ⟨m3, h3⟩ := produced_exists h exSubs
  let root : SentBlock := ⟨exProducer.schema, exBlock, exSubs, m1⟩
  let tree : List SentBlock := [root, ⟨exProducer.schema, exNext, exSubs, m2⟩, ⟨exProducer.schema, exForkBlock, exSubs, m3⟩]
  have hmem : ∀ s, s ∈ tree ↔ s = root ∨ s = ⟨exProducer.schema, exNext, exSubs, m2⟩ ∨ s = ⟨exProducer.schema, exForkBlock, exSubs, m3⟩ := by
    intro s; simp [tree]
  have hcorrect : ∀ s ∈ tree, s.Correct Avro.codec := by
    intro s hs
    rcases (hmem s).mp hs with rfl | rfl | rfl
    · exact ⟨h1, exBlock_wf⟩
    · exact ⟨h2, exNext_wf⟩
    · exact ⟨h3, exForkBlock_wf⟩
  have hT : SentTree Avro.codec exForkCfg root tree (recv m1 ++ (recv m2 ++ (recv m3 ++ recv m2))) := by
    refine ⟨⟨by simp [tree], rfl, rfl, show (0 : Int) < 300 by decide, ?_, ?_, ?_, ?_⟩, hcorrect, ?_⟩
    · show exHash 2 ∉ [exHash 1, exHash 3, exHash 5]
      decide
    · intro s hs
      rcases (hmem s).mp hs with rfl | rfl | rfl
      · exact .inl rfl
      · exact .inr ⟨root, by simp [tree], rfl, rfl, show (300 : Int) < 310 by decide⟩
      · exact .inr ⟨root, by simp [tree], rfl, rfl, show (300 : Int) < 320 by decide⟩
    · show [Hash.zero, exHash 1, exHash 3, exHash 5].Nodup
      decide
    · intro s _ x hx
      simp [exForkCfg, exCfg] at hx
    · intro m hm
      simp only [List.mem_append] at hm
      rcases hm with hm | hm | hm | hm
      · exact ⟨_, (hmem _).mpr (.inl rfl), recv_copy (ms := m1) (fun _ h => h) hm⟩
      · exact ⟨_, (hmem _).mpr (.inr (.inl rfl)), recv_copy (ms := m2) (fun _ h => h) hm⟩
      · exact ⟨_, (hmem _).mpr (.inr (.inr rfl)), recv_copy (ms := m3) (fun _ h => h) hm⟩
      · exact ⟨_, (hmem _).mpr (.inr (.inl rfl)), recv_copy (ms := m2) (fun _ h => h) hm⟩
  have hF : HeadersFollow root tree (recv m1 ++ (recv m2 ++ (recv m3 ++ recv m2))) := by
    intro l1 m l2 e _ s hs hb
    by_cases hr : s = root
    · exact .inl hr
    refine .inr ⟨root, by simp [tree], ?_, ?_⟩
    · rcases (hmem s).mp hs with rfl | rfl | rfl
      · exact (hr rfl).elim
      · rfl
      · rfl
    · have hno : m ∉ recv m1 := by
        intro hm
        have := copy_hash Avro.codec_lawful (hcorrect root (by simp [tree])) (recv_copy (ms := m1) (fun _ h => h) hm)
        exact hr (hT.supplied.inj _ _ hs (by simp [tree]) (hb.symm.trans this))
      have hpre : ∀ x ∈ recv m1, x ∈ l1 := by
        rcases List.append_eq_append_iff.mp e with ⟨u, hu1, hu2⟩ | ⟨u, hu1, hu2⟩
        · intro x hx; rw [hu1]; simp [hx]
        · rcases u with _ | ⟨y, u⟩
          · rw [hu1]; simp
          · simp at hu2
            exact (hno (by rw [hu1, ← hu2.1]; simp)).elim
      intro x hx
      obtain ⟨y, hy, hxy⟩ := recv_all m1 x hx
      exact ⟨y, hpre y hy, hxy⟩
  have hA : ∀ s ∈ tree, AllArrive s.msgs (recv m1 ++ (recv m2 ++ (recv m3 ++ recv m2))) := by
    intro s hs x hx
    rcases (hmem s).mp hs with rfl | rfl | rfl
    · obtain ⟨m, hm, e⟩ := recv_all m1 x hx
      exact ⟨m, by simp [hm], e⟩
    · obtain ⟨m, hm, e⟩ := recv_all m2 x hx
      exact ⟨m, by simp [hm], e⟩
    · obtain ⟨m, hm, e⟩ := recv_all m3 x hx
      exact ⟨m, by simp [hm], e⟩
  have hw : (tree.length : Int) ≤ 2 * exForkCfg.reorgThreshold := by show (3 : Int) ≤ 2 * 2; decide
  have hst : ∃ s0, Sys.start exForkCfg ((recv m1 ++ (recv m2 ++ (recv m3 ++ recv m2))).map Call.msg) = .ok s0 := ⟨_, rfl⟩
  obtain ⟨s0, hst⟩ := hst
  obtain ⟨s, hs, hd⟩ := (C86_no_fault (env := exEnv) (o := .plain) hT Avro.codec_lawful hw hst .refl).2
  have hcs := causal_of_none (fun _ => rfl) hs
  have hh : Heard exEnv s := fun t _ n hn => by simp [exEnv] at hn
  obtain ⟨base, chain, top, g1, g2, g3, g4, g5, g6⟩ := C86_end hT Avro.codec_lawful hw hF hA hst hcs hd hh
  refine ⟨root, tree, _, ⟨rfl, ⟨exProducer.schema, exNext, exSubs, m2⟩, by simp [tree], show (300 : Int) < 310 by decide⟩, hT, hw, hF, hA, s0, s, base, chain, hst, hcs, hd, hh, g1, ?_⟩
  rw [g3]
  have h320 := g5 ⟨exProducer.schema, exForkBlock, exSubs, m3⟩ (by simp [tree])
  rcases (hmem top).mp g4 with rfl | rfl | rfl
  · exact absurd h320 (show ¬ (320 : Int) ≤ 300 by decide)
  · exact absurd h320 (show ¬ (320 : Int) ≤ 310 by decide)
  · rfl

end Verif
