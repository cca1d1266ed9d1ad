import Verif.Proofs.OrderingOnce
import Verif.Props.OrderingEx
/-!
# C28–C34, C36: what the ordering layer sends

Every statement quantifies over whole histories of delivered blocks (and, where allowed, reorg notifications), starting in the
state of `NewOrderedMessageProcessor`. `FromWorld W blocks`: delivered blocks have non-zero hashes, and blocks with the same
hash have the same parent, number and weight.
-/
namespace Verif
open Spec

variable {o : MapOrder}

/-- **C28**: a subscriber that starts at `LastHash` can apply all updates and notifications sent, and ends on the head. -/
theorem C28_continuous {W : World} {cfg : Config} {ops : List OOp} {s0 s : OMP} (h0 : cfg.lastHash ≠ Hash.zero)
    (hW : FromWorld W (blocksOf ops)) (hn : newOMP cfg = .ok s0) (hr : s0.run o ops = .ok s) :
    ∃ base chain, Replays cfg.lastHash s.log base chain ∧ Linked base chain ∧ endOf base chain = s.lastHash := by
  obtain ⟨_, _, base, chain, h⟩ := run_following h0 hW hn hr
  exact ⟨base, chain, h.replays, h.linked, h.tip⟩

/-- The tree with two forks and a notification meets the hypotheses; two updates are sent, the second a reorg. -/
example : exOCfg.lastHash ≠ Hash.zero ∧ FromWorld exW (blocksOf (exTree.map OOp.block ++ [.reorg 3 (exHash 2)])) ∧
    newOMP exOCfg = .ok (omp0 exOCfg) ∧
    ∃ s, (omp0 exOCfg).run .plain (exTree.map OOp.block ++ [.reorg 3 (exHash 2)]) = .ok s ∧
      (sent s == [([exHash 2, exHash 3], []), ([exHash 4, exHash 5], [exHash 2, exHash 3])]) = true :=
  ⟨by decide, by decide +kernel, omp0_new _ (by decide), ex_ok _ (by decide +kernel)⟩

/-- **C29**, the fork: an update that removes blocks removes a linked chain ending in the current head, and the removed and the
added chain start on the same parent. -/
theorem C29_fork {W : World} {cfg : Config} {ops : List OOp} {s0 s : OMP} (h0 : cfg.lastHash ≠ Hash.zero)
    (hW : FromWorld W (blocksOf ops)) (hn : newOMP cfg = .ok s0) (hr : s0.run o ops = .ok s) :
    EachOut (ForkAt cfg.lastHash) s.log := (run_fork h0 hW hn hr).2

/-- **C29**, disjointness: no block is both removed and added by one update. -/
theorem C29_disjoint {W : World} {cfg : Config} {bs : List PB} {s0 s : OMP} (h0 : cfg.lastHash ≠ Hash.zero)
    (hw : cfg.lastWeight = W.weight cfg.lastHash) (hW : FromWorld W bs) (hh : ∀ b ∈ bs, W.Heavier b)
    (hN : ∀ b ∈ bs, W.Numbered b) (hn : newOMP cfg = .ok s0) (hr : s0.run o (bs.map OOp.block) = .ok s) :
    EachOut (fun _ x => Disjoint' x) s.log := (run_heavy h0 hw hW hh hn hr).2.2 hN

/-- The tree meets all hypotheses of C28 to C32 and C36. -/
theorem ex_tree_ok : exOCfg.lastHash ≠ Hash.zero ∧ exOCfg.lastWeight = exW.weight exOCfg.lastHash ∧ FromWorld exW exTree ∧
    (∀ b ∈ exTree, exW.Heavier b) ∧ (∀ b ∈ exTree, exW.Numbered b) ∧ newOMP exOCfg = .ok (omp0 exOCfg) ∧
    ∃ s, (omp0 exOCfg).run .plain (exTree.map OOp.block) = .ok s ∧
      (sent s == [([exHash 2, exHash 3], []), ([exHash 4, exHash 5], [exHash 2, exHash 3])]) = true :=
  ⟨by decide, by decide +kernel, exW_from, exW_heavier, exW_numbered, omp0_new _ (by decide), exTree_run⟩

/-- C29: the example's second update is a reorg at block 1. -/
example := ex_tree_ok

/-- **C30**: every update makes the head strictly heavier. -/
theorem C30_heavier {W : World} {cfg : Config} {bs : List PB} {s0 s : OMP} (h0 : cfg.lastHash ≠ Hash.zero)
    (hw : cfg.lastWeight = W.weight cfg.lastHash) (hW : FromWorld W bs) (hh : ∀ b ∈ bs, W.Heavier b)
    (hn : newOMP cfg = .ok s0) (hr : s0.run o (bs.map OOp.block) = .ok s) :
    EachOut (HeavierAt W cfg.lastHash) s.log := (run_heavy h0 hw hW hh hn hr).2.1

/-- C30: the weights of the heads are 5, 20, 25. -/
example := ex_tree_ok

/-- **C31**: in any reachable state, when handling a block sends an update (and evicts nothing), the added blocks run from the
triggering block, or a block waiting on it, along waiting blocks to a block nothing waits on; no chain of blocks waiting
on the triggering block ends in a heavier block. -/
theorem C31_heaviest {W : World} {cfg : Config} {ops : List OOp} {s0 s s' : OMP} {pb : PB} {added removed : List PB}
    (hW : FromWorld W (blocksOf ops ++ [pb])) (hn : newOMP cfg = .ok s0) (hr : s0.run o ops = .ok s)
    (hh : s.handle o pb = .ok s') (hl : s'.log = s.log ++ [.update added removed]) :
    (∃ pre b ext, added = pre ++ b :: ext ∧ Waits s.queued pb.hash b.hash ∧ WaitingChain s.queued b.hash ext) ∧
    s.queued.get? (endOf s.lastHash added) = none ∧
    ∀ d, Waits s.queued pb.hash d → s.queued.get? d = none → (d = pb.hash ∨ s.pending.contains d = true) →
      W.weight d ≤ W.weight (endOf s.lastHash added) := by
  let D : PB → Prop := (· ∈ blocksOf ops ++ [pb])
  have hH : Hashed D := hW.hashed
  have hI : OInv D s := by
    refine orun_ind (o := o) (P := fun _ s => OInv D s) (newOMP_inv hn).1 ?_ hr
    intro pre op post a a' e ha hop
    cases op with
    | reorg n h => simp only [OMP.op, OMP.handleReorg, Except.ok.injEq] at hop; subst hop; exact ha.of_maps rfl rfl
    | block b =>
      exact (op_block_out (N := False) (fun h => h.elim) ha (fun _ => by
        show b ∈ _; simp [mem_blocksOf e]) hop).inv
  have hp : D pb := by show pb ∈ _; simp
  have hb := handleAux_best hH _ s pb false hI hp hh hl
  have hout := (handle_out (N := False) (o := o) (fun h => h.elim) s pb hI (fun _ => hp)).ok hh
  have hu : ∃ a r, Updated False D s s' a r ∧ a = added := by
    rcases hout.out with ⟨_, _, l, h1, h2⟩ | ⟨a, r, hu⟩
    · rw [hl] at h2
      have := List.append_cancel_left h2
      obtain ⟨n, hx⟩ := h1 (.update added removed) (by rw [← this]; simp)
      simp at hx
    · obtain ⟨l, _, h2⟩ := hu.log
      rw [hl, List.append_assoc] at h2
      have h3 := List.append_cancel_left h2
      cases l with
      | nil => simp only [List.nil_append, List.cons.injEq, OOut.update.injEq, and_true] at h3; exact ⟨a, r, hu, h3.1.symm⟩
      | cons x l => simp at h3
  obtain ⟨a, r, hu, rfl⟩ := hu
  have hwt : s'.lastWeight = W.weight (endOf s.lastHash a) := by
    rw [hu.lastWeight]
    have hne := hu.ne
    have hA := hu.addedD
    clear hb hl hu hout
    cases a with
    | nil => exact (hne rfl).elim
    | cons x l =>
      show endWeight x.weight l = W.weight (endOf x.hash l)
      exact endWeight_eq (fun b hb => (hW b (hA b (by simp [hb]))).1) (hW x (hA x (by simp))).1.weight
  refine ⟨hb.chain, ?_, ?_⟩
  · have := hb.leaf
    rw [hu.lastHash] at this
    exact this
  · intro d hd hleaf hk
    have := hb.best d hd hleaf
    rw [hwt] at this
    refine Nat.le_trans (Nat.le_of_eq ?_) this
    unfold wt
    simp only [GMap.get?_insert]
    split
    · rename_i e; rw [← e]; exact (hW pb hp).1.weight.symm
    · rename_i e
      rcases hk with hk | hk
      · exact (e hk.symm).elim
      · obtain ⟨b, hb'⟩ := (GMap.mem_keys_iff _).mp ((GMap.contains_iff_mem_keys _).mp hk)
        rw [hb']
        obtain ⟨e1, e2⟩ := hI.pend _ _ hb'
        show _ = b.weight
        rw [(hW b e2).1.weight, e1]

/-- C31: three chains wait on block 2; the update follows the heaviest. -/
example : FromWorld (worldOf (ob 2 1 11 10 :: [ob 3 2 12 20, ob 4 2 12 15, ob 5 4 13 30, ob 6 4 13 29]) 9)
      (blocksOf ([ob 3 2 12 20, ob 4 2 12 15, ob 5 4 13 30, ob 6 4 13 29].map OOp.block) ++ [ob 2 1 11 10]) ∧
    ∃ s, (omp0 exOCfg).run .plain ([ob 3 2 12 20, ob 4 2 12 15, ob 5 4 13 30, ob 6 4 13 29].map OOp.block) = .ok s ∧
      (match s.handle .plain (ob 2 1 11 10) with
        | .ok s' => sent s' == [([exHash 2, exHash 4, exHash 5], [])] && s'.log.length == 1 && s.log.length == 0
        | .error _ => false) = true :=
  ⟨by decide +kernel, ex_ok _ (by decide +kernel)⟩

/-- **C32**: at every point of the log, the chain a subscriber holds has no block twice. -/
theorem C32_once {W : World} {cfg : Config} {ops : List OOp} {s0 s : OMP} (h0 : cfg.lastHash ≠ Hash.zero)
    (hW : FromWorld W (blocksOf ops)) (hN : ∀ b ∈ blocksOf ops, W.Numbered b) (hn : newOMP cfg = .ok s0)
    (hr : s0.run o ops = .ok s) :
    ∀ l1 l2, s.log = l1 ++ l2 → (∃ base chain, Replays cfg.lastHash l1 base chain) ∧
      ∀ base chain, Replays cfg.lastHash l1 base chain → (base :: hashes chain).Nodup := by
  intro l1 l2 e
  obtain ⟨_, _, base, chain, h⟩ := run_following h0 hW hn hr
  refine ⟨replays_prefix h.replays l1 l2 e, ?_⟩
  intro b c hbc
  obtain ⟨h1, h2⟩ := replays_linked hbc
  refine (linked_nodup (W := W) h1 ?_).1
  intro x hx
  obtain ⟨a, r, h3, h4⟩ := h2 x hx
  obtain ⟨l, l', e', _⟩ := (run_admitted hn hr a r (by rw [e]; simp [h3])).1 x h4
  exact hN x (by rw [e']; simp)

/-- C32: the example delivers block 2 twice. -/
example := ex_tree_ok

/-- **C33**: no update adds (or removes) a block whose height has a different hash in the whitelist. -/
theorem C33_whitelist {cfg : Config} {ops : List OOp} {s0 s : OMP} (hn : newOMP cfg = .ok s0) (hr : s0.run o ops = .ok s)
    {added removed : List PB} (hu : .update added removed ∈ s.log) {b : PB} (hb : b ∈ added ++ removed) :
    ¬ Forbidden cfg.whitelist b := by
  have := run_admitted hn hr added removed hu
  rcases List.mem_append.mp hb with h | h
  · exact (this.1 b h).choose_spec.choose_spec.2.1
  · exact (this.2 b h).choose_spec.choose_spec.2.1

/-- A whitelist that wants block 4 at height 11. -/
def exWCfg : Config := { exOCfg with whitelist := GMap.empty.insert 11 (exHash 4) }

/-- C33: block 2 is forbidden, block 4 is not; block 3 was queued before its parent was excluded and is not sent. -/
example : newOMP exWCfg = .ok (omp0 exWCfg) ∧ Forbidden exWCfg.whitelist (ob 2 1 11 10) ∧
    ∃ s, (omp0 exWCfg).run .plain (exTree.map OOp.block) = .ok s ∧ (sent s == [([exHash 4, exHash 5], [])]) = true :=
  ⟨omp0_new _ (by decide), ⟨exHash 4, rfl, by decide⟩, ex_ok _ (by decide +kernel)⟩

/-- **C34**: a block is only ever sent if it arrived at a time when it was neither forbidden nor was its parent excluded. -/
theorem C34_admitted {cfg : Config} {ops : List OOp} {s0 s : OMP} (hn : newOMP cfg = .ok s0) (hr : s0.run o ops = .ok s)
    {added removed : List PB} (hu : .update added removed ∈ s.log) {b : PB} (hb : b ∈ added ++ removed) :
    Admitted cfg.whitelist (blocksOf ops) b := by
  have := run_admitted hn hr added removed hu
  rcases List.mem_append.mp hb with h | h
  · exact this.1 b h
  · exact this.2 b h

/-- **C34**: a block all of whose arrivals came after its parent was excluded is never added to the chain. Its own arrival
excludes it, so that the same holds for blocks on top of it. -/
theorem C34_descendants {cfg : Config} {ops : List OOp} {s0 s : OMP} (hn : newOMP cfg = .ok s0) (hr : s0.run o ops = .ok s)
    {h : Hash} (hx : ∀ l1 b l2, blocksOf ops = l1 ++ b :: l2 → b.hash = h →
      Forbidden cfg.whitelist b ∨ Excluded cfg.whitelist l1 b.parentHash)
    {added removed : List PB} (hu : .update added removed ∈ s.log) : h ∉ hashes added := by
  intro hm
  obtain ⟨b, hb, rfl⟩ := List.mem_map.mp hm
  obtain ⟨l1, l2, e, h1, h2⟩ := (run_admitted hn hr added removed hu).1 b hb
  rcases hx l1 b l2 e rfl with h | h
  · exact h1 h
  · exact h2 h

/-- C34: block 3 on the forbidden block 2, and block 6 on block 3, arriving after it. -/
example : newOMP exWCfg = .ok (omp0 exWCfg) ∧ Excluded exWCfg.whitelist [ob 2 1 11 10] (exHash 2) ∧
    Excluded exWCfg.whitelist [ob 2 1 11 10, ob 3 2 12 20] (exHash 3) ∧
    ∃ s, (omp0 exWCfg).run .plain ([ob 2 1 11 10, ob 3 2 12 20, ob 6 3 13 30, ob 4 1 11 11].map OOp.block) = .ok s ∧
      (sent s == [([exHash 4], [])]) = true := by
  have h2 : Excluded exWCfg.whitelist [ob 2 1 11 10] (exHash 2) :=
    Excluded.white (l := []) (b := ob 2 1 11 10) ⟨exHash 4, rfl, by decide⟩
  exact ⟨omp0_new _ (by decide), h2, Excluded.child (l := [ob 2 1 11 10]) (b := ob 3 2 12 20) h2, ex_ok _ (by decide +kernel)⟩

/-- **C36**: handling a block ends in any state that is consistent with a numbered world. (`hang` is running out of the
recursion bounds given in the model.) -/
theorem C36_handle {W : World} {s : OMP} {pb : PB} (hs : Consistent W s) (hpb : W.Has pb ∧ W.Numbered pb ∧ pb.hash ≠ Hash.zero) :
    s.handle o pb ≠ .error .hang := by
  let D : PB → Prop := fun b => W.Has b ∧ W.Numbered b ∧ b.hash ≠ Hash.zero
  have hH : Hashed D := ⟨fun b h => h.2.2, fun a b ha hb e => by rw [ha.1.parent, hb.1.parent, e]⟩
  have hI : OInv D s := by
    refine ⟨?_, ?_, ?_⟩
    · intro h b hb
      obtain ⟨h1, h2, h3, h4⟩ := hs.pending h b hb
      exact ⟨h1, h2, h3, h1 ▸ h4⟩
    · intro p q c hq hc
      obtain ⟨h1, h2, h3⟩ := hs.queued p q c hq ((GMap.contains_iff_mem_keys _).mpr hc)
      refine ⟨{ pb with hash := c, parentHash := p, number := W.number c, weight := W.weight c }, ⟨⟨h1.symm, rfl, rfl⟩, h2, h3⟩, rfl, rfl⟩
    · intro p q hq
      obtain ⟨c, hc⟩ := hs.nonempty p q hq
      exact ⟨c, (GMap.contains_iff_mem_keys _).mp hc⟩
  have := above_size W.number s.queued pb.hash
  have h := handleAux_ends (o := o) (W := W) hH (fun b hb => hb.2.1) (s.queued.size + 2) s pb false hI hpb (by omega)
  intro e
  unfold OMP.handle at e
  rw [e] at h
  exact absurd h (by simp [Out])

/-- **C36**: every reachable state is consistent. -/
theorem C36_reachable {W : World} {cfg : Config} {ops : List OOp} {s0 s : OMP}
    (hW : FromWorld W (blocksOf ops)) (hN : ∀ b ∈ blocksOf ops, W.Numbered b) (hn : newOMP cfg = .ok s0)
    (hr : s0.run o ops = .ok s) : Consistent W s := by
  have h := run_ends (o := o) hW.hashed hN (fun b hb => hb) (newOMP_inv (D := (· ∈ blocksOf ops)) hn).1
  rw [hr] at h
  have h : OInv (· ∈ blocksOf ops) s := h
  refine ⟨?_, ?_, ?_⟩
  · intro x b hb
    obtain ⟨h1, h2⟩ := h.pend x b hb
    exact ⟨h1, (hW b h2).1, hN b h2, h1 ▸ (hW b h2).2⟩
  · intro p q c hq hc
    obtain ⟨b, h1, rfl, rfl⟩ := h.que p q c hq ((GMap.contains_iff_mem_keys _).mp hc)
    exact ⟨(hW b h1).1.parent.symm, hN b h1, (hW b h1).2⟩
  · intro p q hq
    obtain ⟨c, hc⟩ := h.ne p q hq
    exact ⟨c, (GMap.contains_iff_mem_keys _).mpr hc⟩

/-- **C36**: no history of numbered blocks and notifications fails to end. -/
theorem C36_run {W : World} {cfg : Config} {ops : List OOp} {s0 : OMP}
    (hW : FromWorld W (blocksOf ops)) (hN : ∀ b ∈ blocksOf ops, W.Numbered b) (hn : newOMP cfg = .ok s0) :
    s0.run o ops ≠ .error .hang := by
  have h := run_ends (o := o) hW.hashed hN (fun b hb => hb) (newOMP_inv (D := (· ∈ blocksOf ops)) hn).1
  intro e
  rw [e] at h
  exact absurd h (by simp [Out])

/-- C36: the state after the first three deliveries of the tree is not empty. -/
example : ∃ s, (omp0 exOCfg).run .plain ((exTree.take 2).map OOp.block) = .ok s ∧
    (s.queued.size == 1 && s.pending.size == 2) = true := ex_ok _ (by decide +kernel)

end Verif
