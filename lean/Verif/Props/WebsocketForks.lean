import Verif.Props.Forks
import Verif.Props.WebsocketSystem
/-!
# C89: a websocket consumer, with forks
-/
namespace Verif
open Spec

variable {C : Codec} {env : Env} {o : MapOrder}

/-! ## Specification -/

/-- A tree of blocks received over one or more connections. -/
structure Spec.WsTree (cfg : Config) (root : WsArgs) (tree : List WsArgs) (conns : List (List WMsg)) : Prop extends WsCarried tree conns where
  headers : HeaderTree cfg (wsSent root) (tree.map wsSent)

/-- The batch message of a block is not received before all messages of its parent have been, on this connection or an earlier one. -/
def Spec.WsFollow (root : WsArgs) (tree : List WsArgs) (conns : List (List WMsg)) : Prop :=
  ∀ hist ms later l1 x l2, conns = hist ++ ms :: later → ms = l1 ++ .batch x :: l2 → ∀ b ∈ tree, x.hash = b.1.hash →
    b.1.hash = root.1.hash ∨ ∃ p ∈ tree, p.1.hash = b.1.parentHash ∧ ∃ tb ts, WsForm p.1 p.2 tb ts ∧
      ((OneBatch tb ts ms ∧ AllParts tb ts l1) ∨ ∃ ms' ∈ hist, OneBatch tb ts ms' ∧ AllParts tb ts ms')

/-! ## The order in which blocks are handed on -/

section
variable {cfg : Config} {root : WsArgs} {tree : List WsArgs} {conns : List (List WMsg)} {num : Int} {first : List WMsg} {later : List (List WMsg)}
  {free : WsArgs → Prop} {need : WsArgs → WsArgs → Prop}

/-- The batch message of a block that is not free is not received before all messages of one it needs. -/
def WsAfter (free : WsArgs → Prop) (need : WsArgs → WsArgs → Prop) (tree : List WsArgs) (conns : List (List WMsg)) : Prop :=
  ∀ hist ms later l1 x l2, conns = hist ++ ms :: later → ms = l1 ++ .batch x :: l2 → ∀ b ∈ tree, x.hash = b.1.hash →
    free b ∨ ∃ p ∈ tree, need b p ∧ ∃ tb ts, WsForm p.1 p.2 tb ts ∧
      ((OneBatch tb ts ms ∧ AllParts tb ts l1) ∨ ∃ ms' ∈ hist, OneBatch tb ts ms' ∧ AllParts tb ts ms')

/-- If batch messages of some blocks come only after all messages of another one, then the blocks are handed on after the other one. -/
theorem ws_after (h : WsCarried tree (first :: later)) (hf : WsAfter free need tree (first :: later)) {w0 w : WSys}
    (h0 : WSys.start cfg num first later = .ok w0) (hs : WSys.Steps C env o w0 w) :
    ∀ l1 b l2, w.conn.out = l1 ++ .block b :: l2 → ∃ s ∈ tree, WsExact s.1 s.2 b ∧
      (free s ∨ ∃ p ∈ tree, need s p ∧ ∃ a, WOut.block a ∈ l1 ∧ a.hash = p.1.hash) := by
  induction hs with
  | refl =>
    unfold WSys.start at h0
    obtain ⟨s, h1, h0⟩ := bind_ok.mp h0
    cases h0
    intro l1 b l2 e
    simp [WConn.new] at e
  | step hss hst ih =>
    rename_i w1 w2
    have hv2 := wsinv_steps h rfl h0 (.step hss hst)
    have hv1 := wsinv_steps h rfl h0 hss
    cases hst with
    | inner hi => exact ih
    | reorg ht hout hm =>
      rename_i k x ms mo d omp _ _
      obtain ⟨hist, seen, l0, l, e1, e2, hinv, hdone⟩ := hv1.pos
      have := (h.only (seen ++ w1.todo) (by rw [e1]; simp) (.reorg k x) (by simp [hm])).1
      exact absurd rfl (this k x)
    | reconnect ht hout hm hl => exact ih
    | read ht hout hm hr hstep =>
      rename_i m ms mo d
      obtain ⟨hist, seen, l0, l, e1, e2, hinv, hdone⟩ := hv1.pos
      have hmem : seen ++ w1.todo ∈ first :: later := by rw [e1]; simp
      obtain ⟨l', e3, _⟩ := wstep_out hstep
      have key : ∀ b, WOut.block b ∈ l' → ∃ s ∈ tree, WsExact s.1 s.2 b ∧
          (free s ∨ ∃ p ∈ tree, need s p ∧ ∃ a, WOut.block a ∈ w1.conn.out ∧ a.hash = p.1.hash) := by
        intro x hx
        obtain ⟨b, hb, he⟩ := hv2.exact x (show WOut.block x ∈ d.out by rw [e3]; simp [hx])
        refine ⟨b, hb, he, ?_⟩
        obtain ⟨tb, ts, hform, hob⟩ := h.forms _ hmem b hb
        have hob' : OneBatch tb ts (seen ++ m :: ms) := by rw [hm] at hob; exact hob
        have hv := wsinv_next hform.parted.1 hform.parted.2.1 (hinv b hb tb ts hform hob) hob' hstep l' e3
        have hin : WMsg.batch tb ∈ seen ++ [m] := by
          apply Classical.byContradiction
          intro hno
          have : x ∈ blocksWith tb.hash (l ++ l') := mem_blocksWith.mpr ⟨by simp [hx], he.hash.trans hform.hash.symm⟩
          rw [(hv.before hno).2.1] at this
          simp at this
        obtain ⟨k1, k2, ek⟩ := List.append_of_mem hin
        have hk1 : ∀ y ∈ k1, y ∈ seen := by
          intro y hy
          rcases List.append_eq_append_iff.mp ek with ⟨u, hu1, hu2⟩ | ⟨u, hu1, hu2⟩
          · rcases u with _ | ⟨z, u⟩
            · rw [hu1] at hy; simpa using hy
            · simp at hu2
          · rw [hu1]; simp [hy]
        rcases hf hist (seen ++ w1.todo) w1.later k1 tb (k2 ++ ms) e1 (by
            rw [hm, show seen ++ m :: ms = (seen ++ [m]) ++ ms by simp, ek]; simp) b hb hform.hash with hroot | ⟨p, hp, ep, tb', ts', hform', hcase⟩
        · exact .inl hroot
        · refine .inr ⟨p, hp, ep, ?_⟩
          rcases hcase with ⟨hob2, hall⟩ | ⟨ms', hms', hob2, hall⟩
          · obtain ⟨_, y, g1, _⟩ := (hinv p hp tb' ts' hform' hob2).complete (fun z hz => hk1 z (hall z hz))
            obtain ⟨g2, g3⟩ := mem_blocksWith.mp (show y ∈ blocksWith tb'.hash l by rw [g1]; simp)
            exact ⟨y, by rw [e2]; simp [g2], g3.trans hform'.hash⟩
          · obtain ⟨y, g1, g2⟩ := hdone ms' hms' p hp tb' ts' hform' hob2 hall
            exact ⟨y, by rw [e2]; simp [g1], g2⟩
      intro l1 b l2 e
      have e : w1.conn.out ++ l' = l1 ++ .block b :: l2 := by rw [← e3]; exact e
      rcases List.append_eq_append_iff.mp e with ⟨u, hu1, hu2⟩ | ⟨u, hu1, hu2⟩
      · obtain ⟨s, hs, he, g⟩ := key b (by rw [hu2]; simp)
        refine ⟨s, hs, he, g.imp id ?_⟩
        rintro ⟨p, hp, e1, a, g1, g2⟩
        exact ⟨p, hp, e1, a, by rw [hu1]; simp [g1], g2⟩
      · rcases u with _ | ⟨y, u⟩
        · simp only [List.nil_append] at hu2
          obtain ⟨s, hs, he, g⟩ := key b (by rw [← hu2]; simp)
          refine ⟨s, hs, he, g.imp id ?_⟩
          rintro ⟨p, hp, e1, a, g1, g2⟩
          exact ⟨p, hp, e1, a, by rw [hu1] at g1; simpa using g1, g2⟩
        · simp only [List.cons_append, List.cons.injEq] at hu2
          obtain ⟨rfl, _⟩ := hu2
          exact ih l1 b u hu1

/-- If batch messages of some blocks come only after all messages of another one, then the blocks are emitted after the other one. -/
theorem ws_emitted_after (h : WsCarried tree (first :: later)) (hf : WsAfter free need tree (first :: later)) {w0 w : WSys}
    (h0 : WSys.start cfg num first later = .ok w0) (hs : WSys.Steps C env o w0 w) :
    ∀ l1 b l2, w.sys.mp.emitted = l1 ++ b :: l2 → ∃ s ∈ tree, WsSeen s.1 s.2 b ∧
      (free s ∨ ∃ p ∈ tree, need s p ∧ ∃ a ∈ l1, a.hash = p.1.hash) := by
  have hv := wsinv_steps h rfl h0 hs
  obtain ⟨s0, r1, r2⟩ := hv.run
  obtain ⟨omp0, ds, done, rest, i1, i2, i3, i4, i5, i6, i7⟩ := blocks_inside r1 r2
  intro l1 b l2 e
  rw [e, List.map_append, List.map_cons] at i7
  obtain ⟨k1, k2, ek, g1, g2⟩ := List.map_eq_append_iff.mp i7.symm
  obtain ⟨y, k3, ej, g3, g4⟩ := List.map_eq_cons_iff.mp g2
  rw [ek, ej] at i2
  obtain ⟨a1, a2, e1, g5, g6⟩ := List.filterMap_eq_append_iff.mp (show handed w.conn.out = k1 ++ (y :: k3 ++ rest) by rw [i2]; simp)
  obtain ⟨j1, x, j2, e2, g7, g8, g9⟩ := List.filterMap_eq_cons_iff.mp (show List.filterMap _ a2 = y :: (k3 ++ rest) from g6)
  cases x with
  | reorg => cases g8
  | block x =>
    simp only [Option.some.injEq] at g8
    subst g8
    obtain ⟨s, hs', he, g⟩ := ws_after h hf h0 hs (a1 ++ j1) x j2 (by rw [e1, e2]; simp)
    refine ⟨s, hs', seen_of_exact he (h.weight s hs') g3.symm, g.imp id ?_⟩
    rintro ⟨p, hp, hn, a, ha, ea⟩
    refine ⟨p, hp, hn, ?_⟩
    rcases List.mem_append.mp ha with ha | ha
    · have : a.pb ∈ k1 := by rw [← g5]; exact mem_handed.mpr ⟨a, ha, rfl⟩
      have : a.pb.bald ∈ l1.map PB.bald := by rw [← g1]; exact List.mem_map.mpr ⟨a.pb, this, rfl⟩
      obtain ⟨z, hz, ez⟩ := List.mem_map.mp this
      have e1 : z.bald.hash = a.pb.bald.hash := by rw [ez]
      exact ⟨z, hz, (show z.hash = a.hash from e1).trans ea⟩
    · have := g7 _ ha
      cases this

theorem Spec.WsFollow.after (h : WsFollow root tree conns) :
    WsAfter (fun b => b.1.hash = root.1.hash) (fun b p => p.1.hash = b.1.parentHash) tree conns := h

/-- The blocks are emitted after their parents. -/
theorem Spec.WsTree.order (h : WsTree cfg root tree (first :: later)) (hf : WsFollow root tree (first :: later)) {w0 w : WSys}
    (h0 : WSys.start cfg num first later = .ok w0) (hs : WSys.Steps C env o w0 w) : ParentsFirst cfg.lastHash w.sys.mp.emitted := by
  intro l1 b l2 e
  obtain ⟨s, hs', he, g | ⟨p, hp, g, a, ha, ea⟩⟩ := ws_emitted_after h.toWsCarried hf.after h0 hs l1 b l2 e
  · exact .inl (by rw [he.hash, g]; exact h.headers.hash)
  · exact .inr ⟨a, ha, by rw [ea, g, he.parent]⟩

/-! ## Headers -/

theorem Spec.WsTree.nodup (h : WsTree cfg root tree conns) : (tree.map (·.1.hash)).Nodup := by
  have := (List.nodup_cons.mp h.headers.hashes).2
  simpa [wsSent, Function.comp_def] using this

theorem Spec.WsTree.mem (h : WsTree cfg root tree conns) : root ∈ tree := by
  obtain ⟨r, hr, e⟩ := List.mem_map.mp h.headers.mem
  simp only [wsSent, SentBlock.mk.injEq, true_and, and_true] at e
  have : r = root := Prod.ext e.1 e.2
  exact this ▸ hr

theorem Spec.WsTree.world (h : WsTree cfg root tree conns) {pb : PB} (hpb : ∃ b ∈ tree, WsSeen b.1 b.2 pb) :
    ((treeWorld (wsSent root) (tree.map wsSent)).Has pb ∧ pb.hash ≠ Hash.zero) ∧ (treeWorld (wsSent root) (tree.map wsSent)).Heavier pb ∧
      (treeWorld (wsSent root) (tree.map wsSent)).Numbered pb ∧ ¬ Forbidden cfg.whitelist pb ∧ pb.hash ∈ (tree.map wsSent).map (·.args.hash) := by
  obtain ⟨b, hb, he⟩ := hpb
  refine h.headers.world ?_ ⟨wsSent b, List.mem_map.mpr ⟨b, hb, rfl⟩, he.number, he.weight, he.hash, he.parent⟩
  intro s hs
  obtain ⟨x, hx, rfl⟩ := List.mem_map.mp hs
  exact h.weight x hx

/-! ## C89 -/

/-- **C89**, no faults and no deadlock: whatever the order in which the blocks of a tree come over the connections, neither goroutine of a websocket
consumer is ever about to fault, there are no endless executions, and one that cannot be continued has read and handled everything. -/
theorem C89_progress (h : WsTree cfg root tree (first :: later)) (hwin : (tree.length : Int) ≤ 2 * cfg.reorgThreshold) {w0 : WSys}
    (h0 : WSys.start cfg num first later = .ok w0) :
    (∀ f : Nat → WSys, ¬ ∀ n, WSys.Step C env o (f n) (f (n + 1))) ∧
    ∀ w, WSys.Steps C env o w0 w → ¬ w.Faulting C env o ∧
      ((∃ w', WSys.Step C env o w w') ∨ w.sys.Drained ∧ w.todo = [] ∧ w.later = []) := by
  refine ⟨fun f hf => wsys_no_endless f hf, fun w hw => wsys_progress h.toWsCarried h0 ?_ hw⟩
  intro omp0 ds hn hds
  exact C35_partial (o := o) h.headers.rootHash h.headers.rootWeight (fun b hb => (h.world (hds b hb)).1) (fun b hb => (h.world (hds b hb)).2.1)
    (fun b hb => (h.world (hds b hb)).2.2.1)
    ⟨(tree.map wsSent).map (·.args.hash), by simpa using hwin, h.headers.inU, fun b hb => (h.world (hds b hb)).2.2.2.2⟩ hn

/-- **C89**, while running: at every moment the head of the subscribers is the first-handled block of maximal weight among those handled. -/
theorem C89_head (h : WsTree cfg root tree (first :: later)) (hwin : (tree.length : Int) ≤ 2 * cfg.reorgThreshold)
    (hf : WsFollow root tree (first :: later)) {w0 w : WSys} (h0 : WSys.start cfg num first later = .ok w0) (hs : WSys.Steps C env o w0 w)
    (hne : blocksOf w.sys.ops ≠ []) : FirstHeaviest (blocksOf w.sys.ops) w.sys.omp.lastHash := by
  have hv := wsinv_steps h.toWsCarried rfl h0 hs
  obtain ⟨s0, r1, r2⟩ := hv.run
  obtain ⟨omp0, ds, done, rest, i1, i2, i3, i4, i5, i6, i7⟩ := blocks_inside r1 r2
  have hds : blocksOf w.sys.ops = ds := by rw [i4, blocksOf_map]
  rw [hds] at hne ⊢
  have hex : ∀ pb ∈ ds, ∃ b ∈ tree, WsSeen b.1 b.2 pb := fun pb hpb => hv.emitted h.toWsCarried (by rw [i6]; simp [hpb])
  have hpf := h.order hf h0 hs
  rw [i6] at hpf
  obtain ⟨s', g1, g2⟩ := C37_heaviest (o := o) h.headers.rootHash h.headers.rootWeight (fun b hb => (h.world (hex b hb)).1)
    (fun b hb => (h.world (hex b hb)).2.1) (fun b hb => (h.world (hex b hb)).2.2.1)
    ⟨(tree.map wsSent).map (·.args.hash), by simpa using hwin, h.headers.inU, fun b hb => (h.world (hex b hb)).2.2.2.2⟩
    (fun b hb => (h.world (hex b hb)).2.2.2.1) (parentsFirst_prefix hpf) hne i1
  rw [i5] at g1
  cases g1
  exact g2

/-- **C89**, trees of any size: as long as each emitted block branches off at a recent block (C37), nothing faults, and the head is the first-handled block of
maximal weight among those handled. -/
theorem C89_any_length (h : WsTree cfg root tree (first :: later)) {w0 w : WSys} (h0 : WSys.start cfg num first later = .ok w0)
    (hs : WSys.Steps C env o w0 w) (htr : AllTracked (2 * cfg.reorgThreshold) cfg.lastHash w.sys.mp.emitted) :
    ¬ w.Faulting C env o ∧ (blocksOf w.sys.ops ≠ [] → FirstHeaviest (blocksOf w.sys.ops) w.sys.omp.lastHash) := by
  have hv := wsinv_steps h.toWsCarried rfl h0 hs
  obtain ⟨s0, r1, r2⟩ := hv.run
  obtain ⟨omp0, ds, done, rest, i1, i2, i3, i4, i5, i6, i7⟩ := blocks_inside r1 r2
  have hds : blocksOf w.sys.ops = ds := by rw [i4, blocksOf_map]
  rw [hds]
  have hrun : ∀ ds' r, w.sys.mp.emitted = ds' ++ r → ds' ≠ [] → ∃ s, omp0.run o (ds'.map OOp.block) = .ok s ∧ FirstHeaviest ds' s.lastHash := by
    intro ds' r e hne
    have hex : ∀ pb ∈ ds', ∃ b ∈ tree, WsSeen b.1 b.2 pb := fun pb hpb => hv.emitted h.toWsCarried (by rw [e]; simp [hpb])
    exact C37_any_length (o := o) h.headers.rootHash h.headers.rootWeight (fun b hb => (h.world (hex b hb)).1.1)
      (fun b hb => (h.world (hex b hb)).2.1) (fun b hb => (h.world (hex b hb)).2.2.1) (fun b hb => (h.world (hex b hb)).2.2.2.1)
      (fun l1 b l2 e' => htr l1 b (l2 ++ r) (by rw [e, e']; simp)) hne i1
  refine ⟨?_, ?_⟩
  · rintro (⟨m, ms, mo, f, _, _, hm, hf⟩ | ⟨c, cs, f, ht, hf⟩ | ⟨pb, r, f, ht, hf⟩)
    · obtain ⟨hist, seen, l0, l, e1, _⟩ := hv.pos
      obtain ⟨_, h2, _⟩ := h.only (seen ++ w.todo) (by rw [e1]; simp) m (by rw [hm]; simp)
      obtain ⟨d, hd⟩ := wstep_ok (c := w.conn) (mo := mo) h2
      rw [hd] at hf
      cases hf
    · rw [i3] at ht
      cases rest with
      | nil => simp at ht
      | cons y rest =>
        simp only [List.map_cons, List.cons.injEq] at ht
        rw [← ht.1] at hf
        simp [MP.call] at hf
    · obtain ⟨s', g1, _⟩ := hrun (ds ++ [pb]) (r ++ blocksSent w.sys.out) (by rw [i6, ht]; simp) (by simp)
      rw [List.map_append] at g1
      unfold OMP.run at g1
      rw [List.foldlM_append, show List.foldlM (OMP.op o) omp0 (ds.map OOp.block) = .ok w.sys.omp from i5] at g1
      have g1 : (([pb].map OOp.block).foldlM (OMP.op o) w.sys.omp) = .ok s' := g1
      rw [List.map_cons, List.foldlM_cons] at g1
      rw [show OMP.op o w.sys.omp (.block pb) = .error f from hf] at g1
      simp [bind, Except.bind] at g1
  · intro hne
    obtain ⟨s', g1, g2⟩ := hrun ds _ i6 hne
    rw [i5] at g1
    cases g1
    exact g2

/-- When everything has been read and handled, and the head is a heaviest block of those handled. -/
theorem Spec.WsTree.atRest (h : WsTree cfg root tree conns) (ha : WsComplete tree conns) {w : WSys} (hv : WSInv C env o cfg tree conns w)
    (hd : w.sys.Drained) (ht : w.todo = []) (hl : w.later = [])
    (hhead : blocksOf w.sys.ops ≠ [] → FirstHeaviest (blocksOf w.sys.ops) w.sys.omp.lastHash) :
    ∃ base chain top, Replays cfg.lastHash w.sys.omp.log base chain ∧ Linked base chain ∧ endOf base chain = top.1.hash ∧
      top ∈ tree ∧ (∀ b ∈ tree, b.1.weight ≤ top.1.weight) ∧ ∀ pb ∈ chain, ∃ b ∈ tree, WsSeen b.1 b.2 pb := by
  obtain ⟨s0, r1, r2⟩ := hv.run
  obtain ⟨omp0, ds, done, rest, i1, i2, i3, i4, i5, i6, i7⟩ := blocks_inside r1 r2
  rw [hd.2.1, hd.2.2.1] at i6
  have i6 : w.sys.mp.emitted = ds := by simpa [blocksSent] using i6
  have hds : blocksOf w.sys.ops = ds := by rw [i4, blocksOf_map]
  have hex : ∀ pb ∈ ds, ∃ b ∈ tree, WsSeen b.1 b.2 pb := fun pb hpb => hv.emitted h.toWsCarried (by rw [i6]; exact hpb)
  have hgot := hv.all ha ht hl hd.1
  rw [i6] at hgot
  have hinj : ∀ b ∈ tree, ∀ b' ∈ tree, b.1.hash = b'.1.hash → b = b' := by
    intro b hb b' hb' e
    obtain ⟨i, hi, rfl⟩ := List.mem_iff_getElem.mp hb
    obtain ⟨j, hj, rfl⟩ := List.mem_iff_getElem.mp hb'
    have e : (tree.map (·.1.hash))[i]'(by simpa using hi) = (tree.map (·.1.hash))[j]'(by simpa using hj) := by
      rw [List.getElem_map, List.getElem_map]; exact e
    have := (List.getElem_inj h.nodup).mp e
    subst this; rfl
  have hall : ∀ b ∈ tree, ∃ pb ∈ ds, WsSeen b.1 b.2 pb := by
    intro b hb
    obtain ⟨pb, hpb, e⟩ := List.mem_map.mp (hgot b hb)
    obtain ⟨b', hb', he⟩ := hex pb hpb
    have := hinj b' hb' b hb (he.hash.symm.trans e)
    subst this
    exact ⟨pb, hpb, he⟩
  have hne : blocksOf w.sys.ops ≠ [] := by
    obtain ⟨pb, hpb, _⟩ := hall root h.mem
    rw [hds]
    intro e
    rw [e] at hpb
    simp at hpb
  obtain ⟨l1, b, l2, e, e1, e2, _⟩ := hhead hne
  rw [hds] at e e2
  obtain ⟨top, htop, hx⟩ := hex b (by rw [e]; simp)
  obtain ⟨base, chain, g1, g2, g3⟩ := C28_continuous (o := o) (W := treeWorld (wsSent root) (tree.map wsSent)) (ops := ds.map OOp.block) (s0 := omp0)
    h.headers.rootHash (by rw [blocksOf_map]; exact fun b hb => (h.world (hex b hb)).1) i1 i5
  refine ⟨base, chain, top, g1, g2, by rw [g3, ← e1, hx.hash], htop, ?_, ?_⟩
  · intro b' hb'
    obtain ⟨pb, hpb, he⟩ := hall b' hb'
    have := e2 pb hpb
    have h8 := he.weight
    have h9 := hx.weight
    omega
  · intro x hx
    obtain ⟨a, r, k1, k2⟩ := replays_sent g1 x hx
    exact hex x (by rw [← i6]; exact C43_updates r1 r2 k1 (List.mem_append_left _ k2))

/-- **C89**, at the end: when a websocket consumer has come to rest, under any schedule of its goroutines, and every block came completely over some connection, the
subscribers, having applied all updates, hold a chain of blocks exactly as given to the producer that ends in a block of maximal weight of the whole tree. -/
theorem C89_end (h : WsTree cfg root tree (first :: later)) (hwin : (tree.length : Int) ≤ 2 * cfg.reorgThreshold)
    (hf : WsFollow root tree (first :: later)) (ha : WsComplete tree (first :: later)) {w0 w : WSys}
    (h0 : WSys.start cfg num first later = .ok w0) (hs : WSys.Steps C env o w0 w) (hstuck : ∀ w', ¬ WSys.Step C env o w w') :
    ∃ base chain top, Replays cfg.lastHash w.sys.omp.log base chain ∧ Linked base chain ∧ endOf base chain = top.1.hash ∧
      top ∈ tree ∧ (∀ b ∈ tree, b.1.weight ≤ top.1.weight) ∧ ∀ pb ∈ chain, ∃ b ∈ tree, WsSeen b.1 b.2 pb := by
  obtain ⟨hd, ht, hl⟩ := (((C89_progress (C := C) (env := env) (o := o) h hwin h0).2 w hs).2).resolve_left (fun ⟨w', hw'⟩ => hstuck w' hw')
  exact h.atRest ha (wsinv_steps h.toWsCarried rfl h0 hs) hd ht hl (C89_head h hwin hf h0 hs)

end

/-! ## With the producer -/

/-- A block is added when its parent has been added and all sub-batches of the parent have been sent. -/
def Spec.WsInOrder (root : WsArgs) (tree : List WsArgs) (ops : List WOp) : Prop :=
  ∀ l o a r, ops = l ++ .add o a :: r → a.hash = root.1.hash ∨ ∃ p ∈ tree, p.1.hash = a.parentHash ∧
    ∃ l1 o1 l2, l = l1 ++ .add o1 p.1 :: l2 ∧ ∀ id, (∃ q, p.1.batches.get? q = some id) → .send id (p.2 id) ∈ l2

theorem wsSentBy_split {ops : List WOp} {l1 l2 : List WMsg} {x : TBatch} (h : wsSentBy ops = l1 ++ .batch x :: l2) :
    ∃ k1 o a k2, ops = k1 ++ .add o a :: k2 ∧ x = wsBatch o a.number a.hash a.parentHash a.weight a.updates a.deletes a.batches ∧
      wsSentBy k1 = l1 := by
  induction ops using snoc_induction generalizing l2 with
  | nil => simp [wsSentBy, WProducer.new] at h
  | snoc ops op ih =>
    rw [wsSentBy_snoc] at h
    have inl : ∀ u, wsSentBy ops = l1 ++ .batch x :: u → ∃ k1 o a k2, ops ++ [op] = k1 ++ .add o a :: k2 ∧
        x = wsBatch o a.number a.hash a.parentHash a.weight a.updates a.deletes a.batches ∧ wsSentBy k1 = l1 := by
      intro u hu
      obtain ⟨k1, o, a, k2, e, g1, g2⟩ := ih hu
      exact ⟨k1, o, a, k2 ++ [op], by rw [e]; simp, g1, g2⟩
    have last : ∀ y : WMsg, wsSentBy ops ++ [y] = l1 ++ .batch x :: l2 →
        (∃ u, wsSentBy ops = l1 ++ .batch x :: u) ∨ y = .batch x ∧ wsSentBy ops = l1 := by
      intro y hy
      rcases List.append_eq_append_iff.mp hy with ⟨u, hu1, hu2⟩ | ⟨u, hu1, hu2⟩
      · rcases u with _ | ⟨z, u⟩
        · simp only [List.nil_append, List.cons.injEq] at hu2
          exact .inr ⟨hu2.1, by rw [hu1]; simp⟩
        · simp at hu2
      · rcases u with _ | ⟨z, u⟩
        · simp only [List.nil_append, List.cons.injEq] at hu2
          exact .inr ⟨hu2.1.symm, by rw [hu1]; simp⟩
        · simp only [List.cons_append, List.cons.injEq] at hu2
          exact .inl ⟨u, by rw [hu1, hu2.1]⟩
    cases op with
    | add o a =>
      rcases last _ h with ⟨u, hu⟩ | ⟨e1, e2⟩
      · exact inl u hu
      · simp only [WMsg.batch.injEq] at e1
        exact ⟨ops, o, a, [], rfl, e1.symm, e2⟩
    | send id s =>
      simp only [] at h
      cases hx : (ops.foldl WOp.apply WProducer.new).expected.get? id with
      | none => rw [hx, List.append_nil] at h; exact inl l2 h
      | some y =>
        rw [hx] at h
        rcases last _ h with ⟨u, hu⟩ | ⟨e1, _⟩
        · exact inl u hu
        · cases e1

section
variable {cfg : Config} {root : WsArgs} {tree : List WsArgs} {ops : List WOp}

/-- If blocks are added only when all of another block has been sent, then their batch messages come after it. -/
theorem Spec.WsPublishes.after {free : WsArgs → Prop} {need : WsArgs → WsArgs → Prop} (h : ∀ l o b r, ops = l ++ .add o b.1 :: r → b ∈ tree → free b ∨ ∃ p ∈ tree, need b p ∧
      ∃ l1 o1 l2, l = l1 ++ .add o1 p.1 :: l2 ∧ ∀ id, (∃ q, p.1.batches.get? q = some id) → .send id (p.2 id) ∈ l2)
    (hp : WsPublishes tree ops) (hn : (tree.map (·.1.hash)).Nodup) (o' : MapOrder) :
    WsAfter free need tree [(wsSentBy ops).map (WMsg.json o')] := by
  intro hist ms later l1 x l2 ec e b hb hx
  have hms : ms = (wsSentBy ops).map (WMsg.json o') := by
    rcases hist with _ | ⟨y, hist⟩
    · simp only [List.nil_append, List.cons.injEq] at ec
      exact ec.1.symm
    · simp at ec
  rw [hms] at e ⊢
  obtain ⟨j1, j2, ej, g1, g2⟩ := List.map_eq_append_iff.mp e
  obtain ⟨y, j3, ey, g3, g4⟩ := List.map_eq_cons_iff.mp g2
  cases y with
  | batch y =>
    simp only [WMsg.json, WMsg.batch.injEq] at g3
    rw [ey] at ej
    obtain ⟨k1, o, a, k2, e1, e2, e3⟩ := wsSentBy_split ej
    have hah : a.hash = b.1.hash := by rw [← hx, ← g3, e2]; rfl
    have hab : a = b.1 := by
      obtain ⟨b', hb', rfl⟩ := hp.block (o := o) (a := a) (by rw [e1]; simp)
      obtain ⟨i, hi, rfl⟩ := List.mem_iff_getElem.mp hb
      obtain ⟨j, hj, rfl⟩ := List.mem_iff_getElem.mp hb'
      have e : (tree.map (·.1.hash))[j]'(by simpa using hj) = (tree.map (·.1.hash))[i]'(by simpa using hi) := by
        rw [List.getElem_map, List.getElem_map]; exact hah
      have := (List.getElem_inj hn).mp e
      subst this; rfl
    subst hab
    rcases h k1 o b k2 e1 hb with hr | ⟨p, hpt, ep, m1, o1, m2, em, hsend⟩
    · exact .inl hr
    · refine .inr ⟨p, hpt, ep, _, _, hp.form hpt o1 o', .inl ⟨?_, ?_⟩⟩
      · exact (hp.carriesAt hn o' hpt (l := m1) (r := m2 ++ .add o b.1 :: k2) (by rw [e1, em]; simp)).1
      · rw [← g1, ← e3, em, allParts_iff]
        refine ⟨List.mem_map.mpr ⟨_, wsSentBy_add, rfl⟩, ?_⟩
        intro id hid
        have hid := (hp.idsOf hpt o1 o' id).mp hid
        exact List.mem_map.mpr ⟨_, hp.sentBy hn hpt hid (rest := .add o b.1 :: k2) (by rw [e1, em]) (hsend id hid), rfl⟩
  | ready => simp [WMsg.json] at g3
  | reorg => simp [WMsg.json] at g3
  | sub => simp [WMsg.json] at g3
  | hollow => simp [WMsg.json] at g3
  | unknown => simp [WMsg.json] at g3

theorem Spec.WsInOrder.follow (h : WsInOrder root tree ops) (hp : WsPublishes tree ops) (hn : (tree.map (·.1.hash)).Nodup) (o' : MapOrder) :
    WsFollow root tree [(wsSentBy ops).map (WMsg.json o')] :=
  Spec.WsPublishes.after (free := fun b => b.1.hash = root.1.hash) (need := fun b p => p.1.hash = b.1.parentHash) (fun l o b r e _ => h l o b.1 r e) hp hn o'

/-- **C89**, with the producer: a websocket producer is given the blocks of a tree, each when its parent is complete. Then the consumer never faults, and when it has come to
rest its subscribers hold a chain, exactly as given to the producer, that ends in a block of maximal weight. -/
theorem C89_published (h : WsPublishes tree ops) (hord : WsInOrder root tree ops) (hT : HeaderTree cfg (wsSent root) (tree.map wsSent))
    (hweight : ∀ b ∈ tree, 0 ≤ b.1.weight) (hwin : (tree.length : Int) ≤ 2 * cfg.reorgThreshold) (o' : MapOrder) {num : Int} {w0 : WSys}
    (h0 : WSys.start cfg num ((wsSentBy ops).map (WMsg.json o')) [] = .ok w0) :
    (∀ w, WSys.Steps C env o w0 w → ¬ w.Faulting C env o) ∧
    ∀ w, WSys.Steps C env o w0 w → (∀ w', ¬ WSys.Step C env o w w') →
      ∃ base chain top, Replays cfg.lastHash w.sys.omp.log base chain ∧ Linked base chain ∧ endOf base chain = top.1.hash ∧
        top ∈ tree ∧ (∀ b ∈ tree, b.1.weight ≤ top.1.weight) ∧ ∀ pb ∈ chain, ∃ b ∈ tree, WsSeen b.1 b.2 pb := by
  have hn : (tree.map (·.1.hash)).Nodup := by
    have := (List.nodup_cons.mp hT.hashes).2
    simpa [wsSent, Function.comp_def] using this
  obtain ⟨h1, h2⟩ := h.carried hn hweight o'
  have ht : WsTree cfg root tree [(wsSentBy ops).map (WMsg.json o')] := ⟨h1, hT⟩
  exact ⟨fun w hw => ((C89_progress ht hwin h0).2 w hw).1, fun w hw hst => C89_end ht hwin (hord.follow h hn o') h2 h0 hw hst⟩

end

/-! ## Example: the last processed block again, and two blocks on it -/

def exWA3 : BlockArgs := ⟨6, exHash 5, exHash 1, 320, GMap.ofList [(str "c", [7])], GMap.empty, GMap.ofList [(str "q/", exWId 3)]⟩
def exWTree : List WsArgs := [(exWA1, exWS), (exWA2, exWS), (exWA3, exWS)]

/-- The two branches are interleaved. -/
def exWForkOps : List WOp := [.add .plain exWA1, .send (exWId 1) (exWS (exWId 1)), .send (exWId 0) (exWS (exWId 0)), .add .rev exWA3, .add .plain exWA2,
  .send (exWId 3) (exWS (exWId 3)), .send (exWId 2) (exWS (exWId 2))]

theorem exW_ids3 (id : Hash) : (∃ p, exWA3.batches.get? p = some id) ↔ id = exWId 3 := by
  have e : exWA3.batches.entries = [(str "q/", exWId 3)] := by decide +kernel
  simp only [GMap.get?_eq_some_iff, e, List.mem_cons, Prod.mk.injEq, List.not_mem_nil, or_false]
  constructor
  · rintro ⟨p, _, h⟩; exact h
  · intro h; exact ⟨_, rfl, h⟩

theorem exW_three {P : WsArgs → Prop} (h1 : P (exWA1, exWS)) (h2 : P (exWA2, exWS)) (h3 : P (exWA3, exWS)) : ∀ b ∈ exWTree, P b := by
  intro b hb
  simp only [exWTree, List.mem_cons, List.not_mem_nil, or_false] at hb
  rcases hb with rfl | rfl | rfl
  · exact h1
  · exact h2
  · exact h3

/-- The three blocks may be given to a producer in any order. -/
theorem exWTree_publishes {ops : List WOp} (hadd : (ops.filterMap addOf).Perm (exWTree.map Prod.fst)) (hsend : ∀ id s, WOp.send id s ∈ ops → s = exWS id)
    (hall : ∀ b ∈ exWTree, ∀ id, (∃ p, b.1.batches.get? p = some id) → ∃ l o r, ops = l ++ .add o b.1 :: r ∧ .send id (b.2 id) ∈ r) : WsPublishes exWTree ops := by
  have hsv : ∀ id, id = exWId 0 ∨ id = exWId 1 ∨ id = exWId 2 ∨ id = exWId 3 →
      (∀ k ∈ (exWS id).updates.keys, Utf8 k) ∧ ∀ k ∈ (exWS id).deletes, Utf8 k := by
    rintro id (rfl | rfl | rfl | rfl) <;> exact ⟨ascii_all (by decide +kernel), ascii_all (by decide +kernel)⟩
  have own : ∀ {i j : Nat}, exWId i ≠ exWId j → ∀ {id : Hash} {P : Prop}, id = exWId i → id = exWId j → P :=
    fun h _ _ e1 e2 => absurd (e1.symm.trans e2) h
  have n02 : exWId 0 ≠ exWId 2 := by decide +kernel
  have n12 : exWId 1 ≠ exWId 2 := by decide +kernel
  have n03 : exWId 0 ≠ exWId 3 := by decide +kernel
  have n13 : exWId 1 ≠ exWId 3 := by decide +kernel
  have n23 : exWId 2 ≠ exWId 3 := by decide +kernel
  refine ⟨?_, exW_three (by decide) (by decide) (by decide), exW_three (by decide +kernel) (by decide +kernel) (by decide +kernel), ?_, ?_, ?_, ?_, ?_⟩
  · refine exW_three ?_ ?_ ?_
    · refine ⟨ascii_all (by decide +kernel), ascii_all (by decide +kernel), ascii_all (by decide +kernel), ?_, ?_⟩
      · intro p id hp
        rcases (exW_ids1 id).mp ⟨p, hp⟩ with h | h
        · exact (hsv id (.inl h)).1
        · exact (hsv id (.inr (.inl h))).1
      · intro p id hp
        rcases (exW_ids1 id).mp ⟨p, hp⟩ with h | h
        · exact (hsv id (.inl h)).2
        · exact (hsv id (.inr (.inl h))).2
    · refine ⟨ascii_all (by decide +kernel), ascii_all (by decide +kernel), ascii_all (by decide +kernel), ?_, ?_⟩
      · intro p id hp
        exact (hsv id (.inr (.inr (.inl ((exW_ids2 id).mp ⟨p, hp⟩))))).1
      · intro p id hp
        exact (hsv id (.inr (.inr (.inl ((exW_ids2 id).mp ⟨p, hp⟩))))).2
    · refine ⟨ascii_all (by decide +kernel), ascii_all (by decide +kernel), ascii_all (by decide +kernel), ?_, ?_⟩
      · intro p id hp
        exact (hsv id (.inr (.inr (.inr ((exW_ids3 id).mp ⟨p, hp⟩))))).1
      · intro p id hp
        exact (hsv id (.inr (.inr (.inr ((exW_ids3 id).mp ⟨p, hp⟩))))).2
  · refine exW_three ?_ ?_ ?_
    · exact agree_of_list (ids := [exWId 0, exWId 1]) (l := [(str "a", [1]), (str "p/x", [3]), (str "q/x", [4]), (str "q/y", [5])])
        (fun id h => by simpa using (exW_ids1 id).mp h) (by decide +kernel) (by decide +kernel) (by decide +kernel)
    · exact agree_of_list (ids := [exWId 2]) (l := [(str "b", [2]), (str "p/x", [6])])
        (fun id h => by simpa using (exW_ids2 id).mp h) (by decide +kernel) (by decide +kernel) (by decide +kernel)
    · exact agree_of_list (ids := [exWId 3]) (l := [(str "c", [7]), (str "p/x", [6])])
        (fun id h => by simpa using (exW_ids3 id).mp h) (by decide +kernel) (by decide +kernel) (by decide +kernel)
  · exact hadd
  · have a12 : ∀ id (P : Prop), (∃ p, exWA1.batches.get? p = some id) → (∃ p, exWA2.batches.get? p = some id) → P := by
      intro id P h1 h2
      rcases (exW_ids1 id).mp h1 with h | h
      · exact own n02 h ((exW_ids2 id).mp h2)
      · exact own n12 h ((exW_ids2 id).mp h2)
    have a13 : ∀ id (P : Prop), (∃ p, exWA1.batches.get? p = some id) → (∃ p, exWA3.batches.get? p = some id) → P := by
      intro id P h1 h2
      rcases (exW_ids1 id).mp h1 with h | h
      · exact own n03 h ((exW_ids3 id).mp h2)
      · exact own n13 h ((exW_ids3 id).mp h2)
    have a23 : ∀ id (P : Prop), (∃ p, exWA2.batches.get? p = some id) → (∃ p, exWA3.batches.get? p = some id) → P :=
      fun id P h1 h2 => own n23 ((exW_ids2 id).mp h1) ((exW_ids3 id).mp h2)
    refine exW_three (exW_three ?_ ?_ ?_) (exW_three ?_ ?_ ?_) (exW_three ?_ ?_ ?_)
    · intros; rfl
    · exact fun id h1 h2 => a12 id _ h1 h2
    · exact fun id h1 h2 => a13 id _ h1 h2
    · exact fun id h1 h2 => a12 id _ h2 h1
    · intros; rfl
    · exact fun id h1 h2 => a23 id _ h1 h2
    · exact fun id h1 h2 => a13 id _ h2 h1
    · exact fun id h1 h2 => a23 id _ h2 h1
    · intros; rfl
  · intro id s hs
    have hs := hsend id s hs
    exact exW_three (fun _ => hs) (fun _ => hs) (fun _ => hs)
  · exact hall

theorem exWFork_publishes : WsPublishes exWTree exWForkOps := by
  refine exWTree_publishes (.cons _ (.swap _ _ _)) ?_ ?_
  · intro id s hs
    simp only [exWForkOps, List.mem_cons, WOp.send.injEq, reduceCtorEq, false_or, List.not_mem_nil, or_false] at hs
    rcases hs with ⟨rfl, rfl⟩ | ⟨rfl, rfl⟩ | ⟨rfl, rfl⟩ | ⟨rfl, rfl⟩ <;> rfl
  · refine exW_three ?_ ?_ ?_
    · intro id h
      refine ⟨[], _, _, rfl, ?_⟩
      rcases (exW_ids1 id).mp h with rfl | rfl <;> simp
    · intro id h
      refine ⟨[_, _, _, _], _, _, rfl, ?_⟩
      rcases (exW_ids2 id).mp h with rfl
      simp
    · intro id h
      refine ⟨[_, _, _], _, _, rfl, ?_⟩
      rcases (exW_ids3 id).mp h with rfl
      simp

theorem exWFork_order : WsInOrder (exWA1, exWS) exWTree exWForkOps := by
  have h1 : ∀ r, ∃ l1 o1 l2, exWForkOps.take (3 + r) = l1 ++ .add o1 exWA1 :: l2 ∧
      ∀ id, (∃ q, exWA1.batches.get? q = some id) → .send id (exWS id) ∈ l2 := by
    intro r
    refine ⟨[], .plain, (exWForkOps.take (3 + r)).tail, ?_, ?_⟩
    · rw [show 3 + r = r + 3 by omega]; rfl
    · intro id h
      rw [show 3 + r = r + 3 by omega]
      rcases (exW_ids1 id).mp h with rfl | rfl <;> simp [exWForkOps]
  intro l o a r e
  have hlen : l = exWForkOps.take l.length := by rw [e]; simp
  have hat : exWForkOps[l.length]? = some (.add o a) := by rw [e]; simp
  have hk : l.length = 0 ∨ l.length = 3 ∨ l.length = 4 ∨ l.length = 1 ∨ l.length = 2 ∨ l.length = 5 ∨ l.length = 6 ∨ 7 ≤ l.length := by omega
  rcases hk with h | h | h | h | h | h | h | h
  · rw [h] at hat; simp [exWForkOps] at hat; left; rw [← hat.2]
  · rw [h] at hat; simp [exWForkOps] at hat
    obtain ⟨l1, o1, l2, g1, g2⟩ := h1 0
    exact .inr ⟨(exWA1, exWS), by simp [exWTree], by rw [← hat.2]; rfl, l1, o1, l2, by rw [hlen, h]; exact g1, g2⟩
  · rw [h] at hat; simp [exWForkOps] at hat
    obtain ⟨l1, o1, l2, g1, g2⟩ := h1 1
    exact .inr ⟨(exWA1, exWS), by simp [exWTree], by rw [← hat.2]; rfl, l1, o1, l2, by rw [hlen, h]; exact g1, g2⟩
  · rw [h] at hat; simp [exWForkOps] at hat
  · rw [h] at hat; simp [exWForkOps] at hat
  · rw [h] at hat; simp [exWForkOps] at hat
  · rw [h] at hat; simp [exWForkOps] at hat
  · rw [List.getElem?_eq_none (by simpa [exWForkOps] using h)] at hat
    cases hat

theorem exWFork_headers : HeaderTree exForkCfg (wsSent (exWA1, exWS)) (exWTree.map wsSent) := by
  have three : ∀ {P : SentBlock → Prop}, P (wsSent (exWA1, exWS)) → P (wsSent (exWA2, exWS)) → P (wsSent (exWA3, exWS)) →
      ∀ s ∈ exWTree.map wsSent, P s := by
    intro P h1 h2 h3 s hs
    obtain ⟨b, hb, rfl⟩ := List.mem_map.mp hs
    exact exW_three (P := fun b => P (wsSent b)) h1 h2 h3 b hb
  refine ⟨by simp [exWTree], rfl, rfl, show (0 : Int) < 300 by decide, ?_, three (.inl rfl) (.inr ?_) (.inr ?_), ?_, ?_⟩
  · show exHash 2 ∉ [exHash 1, exHash 3, exHash 5]
    decide
  · exact ⟨wsSent (exWA1, exWS), by simp [exWTree], rfl, rfl, show (300 : Int) < 310 by decide⟩
  · exact ⟨wsSent (exWA1, exWS), by simp [exWTree], rfl, rfl, show (300 : Int) < 320 by decide⟩
  · show [Hash.zero, exHash 1, exHash 3, exHash 5].Nodup
    decide
  · intro s _ x hx
    simp [exForkCfg, exCfg] at hx

/-- C89: an execution of the example that has come to rest exists, and the subscribers hold the heavier branch. -/
example : ∃ w0 w base chain, WSys.start exForkCfg 5 ((wsSentBy exWForkOps).map (WMsg.json .rev)) [] = .ok w0 ∧
    WSys.Steps Avro.codec exEnv .plain w0 w ∧ Replays exForkCfg.lastHash w.sys.omp.log base chain ∧ endOf base chain = exWA3.hash ∧
    ∀ pb ∈ chain, ∃ b ∈ exWTree, WsSeen b.1 b.2 pb := by
  obtain ⟨w0, h0⟩ : ∃ w0, WSys.start exForkCfg 5 ((wsSentBy exWForkOps).map (WMsg.json .rev)) [] = .ok w0 := ⟨_, rfl⟩
  obtain ⟨w, hw, hst⟩ := wsys_rests (C := Avro.codec) (env := exEnv) (o := .plain) w0
  obtain ⟨base, chain, top, g1, g2, g3, g4, g5, g6⟩ := (C89_published exWFork_publishes exWFork_order exWFork_headers
    (exW_three (by decide) (by decide) (by decide)) (by show (3 : Int) ≤ 2 * 2; decide) .rev h0).2 w hw hst
  refine ⟨w0, w, base, chain, h0, hw, g1, ?_, g6⟩
  rw [g3]
  have h320 := g5 (exWA3, exWS) (by simp [exWTree])
  refine exW_three (P := fun top => (320 : Int) ≤ top.1.weight → top.1.hash = exWA3.hash) ?_ ?_ ?_ top g4 h320
  · exact fun h => absurd h (show ¬ (320 : Int) ≤ 300 by decide)
  · exact fun h => absurd h (show ¬ (320 : Int) ≤ 310 by decide)
  · exact fun _ => rfl

end Verif
