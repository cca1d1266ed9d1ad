import Verif.Proofs.OrderingMarks
import Verif.Props.Stays
/-!
# C84: delivery after a reorg notification. C85: what `WhyNotReady` says

A reorg notification moves the head of the ordering layer back (`delivery/ordering.go:241-245`), so that the blocks above the announced one
can be delivered again. What is remembered as handled is not forgotten, though.
-/
namespace Verif
open Spec

variable {o : MapOrder}

/-- What subscribers see: everything but eviction requests, which go to the message processor. -/
def Spec.seenBy (log : List OOut) : List OOut := log.filter (fun
  | .evictOlder _ => false
  | _ => true)

/-- After the history `ops` the state is `s`, and `chain` are blocks on top of the block `root`, not excluded by the whitelist. -/
structure Spec.Resent (o : MapOrder) (W : World) (cfg : Config) (ops : List OOp) (s : OMP) (root : Hash) (chain : List PB) : Prop where
  start : ∃ s0, newOMP cfg = .ok s0 ∧ s0.run o ops = .ok s
  linked : Linked root chain
  world : ∀ b ∈ blocksOf ops ++ chain, W.Has b ∧ W.Numbered b
  allowed : ∀ b ∈ chain, ¬ Forbidden cfg.whitelist b
  root : s.blacklist.contains root = false

/-- The blocks, and blocks on top of them, were not delivered before. -/
structure Spec.Fresh (cfg : Config) (ops : List OOp) (chain : List PB) : Prop where
  unseen : ∀ b ∈ chain, ∀ a ∈ blocksOf ops, a.hash ≠ b.hash
  last : ∀ b ∈ chain, b.hash ≠ cfg.lastHash
  childless : ∀ b ∈ chain, ∀ a ∈ blocksOf ops, a.parentHash ≠ b.hash

theorem seenBy_append (a b : List OOut) : seenBy (a ++ b) = seenBy a ++ seenBy b := by simp [seenBy]

theorem seenBy_evicts {l : List OOut} (h : OnlyEvicts l) : seenBy l = [] := by
  unfold seenBy
  rw [List.filter_eq_nil_iff]
  intro x hx
  obtain ⟨n, rfl⟩ := h x hx
  simp

theorem linked_numbers {W : World} {root : Hash} {chain : List PB} (hl : Linked root chain) (hN : ∀ b ∈ chain, W.Numbered b) :
    ∀ l1 b l2, chain = l1 ++ b :: l2 → W.number b.hash = W.number root + 1 + l1.length := by
  induction chain generalizing root with
  | nil => intro l1 b l2 e; simp at e
  | cons a chain ih =>
    have ha : W.number a.hash = W.number root + 1 := by rw [← hl.1]; exact hN a (by simp)
    intro l1 b l2 e
    cases l1 with
    | nil => simp only [List.nil_append, List.cons.injEq] at e; rw [← e.1]; simpa using ha
    | cons x l1 =>
      simp only [List.cons_append, List.cons.injEq] at e
      have := ih hl.2 (fun b hb => hN b (by simp [hb])) l1 b l2 e.2
      simp only [List.length_cons]; omega

/-- The chain, one block at a time. -/
theorem resend_run {W : World} {cfg : Config} {D : PB → Prop} (hD : ∀ b, D b → W.Numbered b) (chain : List PB) :
    ∀ (s : OMP) (done : List PB) (root : Hash), Marks (fun b => D b ∨ b ∈ done) cfg.lastHash s → s.whitelist = cfg.whitelist →
      s.lastHash = endOf root done → Linked root (done ++ chain) → (∀ b ∈ done ++ chain, W.Numbered b) →
      (∀ b ∈ chain, ¬ Forbidden cfg.whitelist b) → (∀ b ∈ chain, ∀ a, D a → a.hash ≠ b.hash ∧ a.parentHash ≠ b.hash) →
      (∀ b ∈ chain, b.hash ≠ cfg.lastHash) → s.blacklist.contains (endOf root done) = false →
      (∀ b ∈ done ++ chain, s.blacklist.contains b.hash = false) →
      ∃ s', s.run o (chain.map .block) = .ok s' ∧ seenBy s'.log = seenBy s.log ++ chain.map (fun b => .update [b] []) ∧
        s'.lastHash = endOf root (done ++ chain) := by
  induction chain with
  | nil =>
    intro s done root hs _ hl _ _ _ _ _ _ _
    exact ⟨s, rfl, by simp, by simpa using hl⟩
  | cons b chain ih =>
    intro s done root hs hw hl hk hN hal hfr hlast hroot hbl
    have hnums := linked_numbers hk hN
    have hnb := hnums done b chain rfl
    have hother : ∀ a ∈ done, a.hash ≠ b.hash ∧ a.parentHash ≠ b.hash := by
      intro a ha
      obtain ⟨d1, d2, rfl⟩ := List.append_of_mem ha
      have h1 := hnums d1 a (d2 ++ b :: chain) (by simp)
      have h2 : W.number a.hash = W.number a.parentHash + 1 := hN a (by simp)
      simp only [List.length_append, List.length_cons] at hnb
      constructor
      · intro e; rw [e] at h1; omega
      · intro e; rw [e] at h2; omega
    have hpar : b.parentHash = s.lastHash := by
      rw [hl]; exact (linked_append.mp hk).2.1
    have hfin : s.finished.contains b.hash = false := by
      cases e : s.finished.contains b.hash with
      | false => rfl
      | true =>
        rcases hs.fin _ ((LRU.contains_iff _ _).mp e) with k | ⟨a, ha, k⟩
        · exact (hlast b (by simp) k).elim
        · rcases ha with ha | ha
          · exact ((hfr b (by simp) a ha).1 k).elim
          · exact ((hother a ha).1 k).elim
    have hq : s.queued.get? b.hash = none := by
      cases e : s.queued.get? b.hash with
      | none => rfl
      | some q =>
        obtain ⟨c, hc⟩ := hs.inv.ne _ _ e
        obtain ⟨a, ha, _, k⟩ := hs.inv.que _ _ _ e hc
        rcases ha with ha | ha
        · exact ((hfr b (by simp) a ha).2 k).elim
        · exact ((hother a ha).2 k).elim
    have hx : s.excludes b = false := by
      cases e : s.excludes b with
      | false => rfl
      | true =>
        rcases (excludes_iff s b).mp e with k | k
        · rw [hw] at k; exact (hal b (by simp) k).elim
        · rw [hpar, hl, hroot] at k; cases k
    have hs1 : Marks (fun a => D a ∨ a ∈ done ++ [b]) cfg.lastHash s := by
      have hsub : ∀ a, (D a ∨ a ∈ done) → (D a ∨ a ∈ done ++ [b]) := fun a h => h.imp id (fun h => by simp [h])
      refine ⟨⟨fun h a ha => ⟨(hs.inv.pend h a ha).1, hsub _ (hs.inv.pend h a ha).2⟩, ?_, hs.inv.ne⟩, ?_, ?_⟩
      · intro p q c h1 h2
        obtain ⟨a, k1, k2⟩ := hs.inv.que p q c h1 h2
        exact ⟨a, hsub a k1, k2⟩
      · intro h hh
        exact (hs.fin h hh).imp id (fun ⟨a, k1, k2⟩ => ⟨a, hsub a k1, k2⟩)
      · intro h hh
        obtain ⟨a, k1, k2⟩ := hs.black h hh
        exact ⟨a, hsub a k1, k2⟩
    have hDN : ∀ a, (D a ∨ a ∈ done ++ [b]) → W.Numbered a := by
      rintro a (h | h)
      · exact hD a h
      · rcases List.mem_append.mp h with h | h
        · exact hN a (by simp [h])
        · exact hN a (by simp [List.mem_singleton.mp h])
    obtain ⟨s1, l, h1, h2, h3, h4, h5, h6⟩ := handle_next (o := o) hDN s b hs1.inv (.inr (by simp)) hx hfin hpar hq
    have hm := (handleAux_marks (o := o) _ s b false hs1 (.inr (by simp))).ok h1
    obtain ⟨s', k1, k2, k3⟩ := ih s1 (done ++ [b]) root hm (h5.trans hw) (by rw [h4, endOf_append]; rfl) (by simpa using hk)
      (by simpa using hN) (fun a ha => hal a (by simp [ha])) (fun a ha => hfr a (by simp [ha])) (fun a ha => hlast a (by simp [ha]))
      (by rw [h6, endOf_append]; exact hbl b (by simp)) (by rw [h6]; simpa using hbl)
    refine ⟨s', ?_, ?_, by simpa using k3⟩
    · rw [List.map_cons]
      unfold OMP.run at k1 ⊢
      rw [List.foldlM_cons]
      show (s.handle o b >>= fun s => _) = _
      rw [h1]; exact k1
    · rw [k2, h3, seenBy_append, seenBy_append, seenBy_evicts h2]
      simp [seenBy]

/-! ## C84 -/

/-- **C84**, the part that holds: after a reorg notification, blocks on top of the announced one that were not delivered before are
handled without fault and sent to the subscribers one after the other, whatever their weight. -/
theorem C84_fresh_partial {W : World} {cfg : Config} {ops : List OOp} {s : OMP} {root : Hash} {chain : List PB} {n : Int}
    (h : Resent o W cfg ops s root chain) (hf : Fresh cfg ops chain) :
    ∃ s', s.run o (.reorg n root :: chain.map .block) = .ok s' ∧
      seenBy s'.log = seenBy s.log ++ .reorg n root :: chain.map (fun b => .update [b] []) ∧ s'.lastHash = endOf root chain := by
  obtain ⟨s0, hn, hr⟩ := h.start
  have hm := run_marks hn hr
  have hw := (run_oinv (o := o) (D := (· ∈ blocksOf ops)) (fun b hb => hb) (newOMP_inv hn).1 hr).2.1.trans (newOMP_inv (D := fun _ => True) hn).2.2.2.1
  obtain ⟨s', h1, h2, h3⟩ := resend_run (o := o) (W := W) (cfg := cfg) (D := (· ∈ blocksOf ops))
    (fun b hb => (h.world b (by simp [hb])).2) chain (s.handleReorg n root) [] root
    ⟨⟨fun x a ha => ⟨(hm.inv.pend x a ha).1, .inl (hm.inv.pend x a ha).2⟩,
      fun p q c k1 k2 => by obtain ⟨a, e1, e2⟩ := hm.inv.que p q c k1 k2; exact ⟨a, .inl e1, e2⟩, hm.inv.ne⟩,
      fun x hx => (hm.fin x hx).imp id (fun ⟨a, e1, e2⟩ => ⟨a, .inl e1, e2⟩),
      fun x hx => by obtain ⟨a, e1, e2⟩ := hm.black x hx; exact ⟨a, .inl e1, e2⟩⟩
    hw rfl h.linked (fun b hb => (h.world b (by simp at hb; simp [hb])).2) h.allowed
    (fun b hb a ha => ⟨hf.unseen b hb a ha, hf.childless b hb a ha⟩) hf.last h.root
    (fun b hb => by
      cases e : (s.handleReorg n root).blacklist.contains b.hash with
      | false => rfl
      | true =>
        obtain ⟨a, e1, e2⟩ := hm.black _ e
        exact (hf.unseen b (by simpa using hb) a e1 e2).elim)
  refine ⟨s', h1, ?_, h3⟩
  rw [h2]
  show seenBy (s.log ++ [_]) ++ _ = _
  rw [seenBy_append]
  simp [seenBy]

/-- **C84**, what happens to blocks that are remembered: delivered again on top of the announced block they are ignored, and the head
stays at the announced block. -/
theorem C84_remembered_partial {s : OMP} {root : Hash} {chain : List PB} {n : Int}
    (hf : ∀ b ∈ chain, s.finished.contains b.hash = true) :
    ∃ s', s.run o (.reorg n root :: chain.map .block) = .ok s' ∧ s'.log = s.log ++ [.reorg n root] ∧ s'.lastHash = root ∧
      s'.lastWeight = s.lastWeight := by
  suffices h : ∀ (l : List PB) (s1 : OMP), (∀ b ∈ l, s1.finished.contains b.hash = true) →
      ∃ s', s1.run o (l.map .block) = .ok s' ∧ s'.log = s1.log ∧ s'.lastHash = s1.lastHash ∧ s'.lastWeight = s1.lastWeight by
    obtain ⟨s', h1, h2, h3, h4⟩ := h chain (s.handleReorg n root) hf
    exact ⟨s', h1, h2, h3, h4⟩
  intro l
  induction l with
  | nil => intro s1 _; exact ⟨s1, rfl, rfl, rfl, rfl⟩
  | cons b l ih =>
    intro s1 h
    obtain ⟨s2, h1, h2, h3, h4, _, h5⟩ := C40_repeat (o := o) (h b (by simp))
    obtain ⟨s', k1, k2, k3, k4⟩ := ih s2 (fun a ha => by rw [h5]; exact h a (by simp [ha]))
    refine ⟨s', ?_, k2.trans h2, k3.trans h3, k4.trans h4⟩
    rw [List.map_cons]
    unfold OMP.run at k1 ⊢
    rw [List.foldlM_cons]
    show (s1.handle o b >>= fun s => _) = _
    rw [h1]; exact k1

/-- **C84**, how subscribers get to see those blocks again: a new block heavier than the head before the notification, whose ancestors
down to the announced block are held, is sent together with all of them, oldest first (and with blocks that waited for it). -/
theorem C84_reconnected_partial {W : World} {cfg : Config} {ops : List OOp} {s s' : OMP} {root : Hash} {old pb : PB} {pre : List PB} {n : Int}
    (h : Resent o W cfg ops s root (pre ++ [pb])) (hf : Fresh cfg ops [pb]) (hne : pre ≠ []) (hroot : s.pending.get? root = some old)
    (hheld : ∀ a ∈ pre, s.pending.get? a.hash = some a) (hpar : s.finished.contains pb.parentHash = true)
    (hbl : s.blacklist.contains pb.parentHash = false) (hw : s.lastWeight < pb.weight)
    (hs : (s.handleReorg n root).handle o pb = .ok s') :
    ∃ ext, seenBy s'.log = seenBy s.log ++ [.reorg n root, .update (pre ++ [pb] ++ ext) []] := by
  obtain ⟨s0, hn, hr⟩ := h.start
  have hm := run_marks hn hr
  have hwl := (run_oinv (o := o) (D := (· ∈ blocksOf ops)) (fun b hb => hb) (newOMP_inv hn).1 hr).2.1.trans (newOMP_inv (D := fun _ => True) hn).2.2.2.1
  have hnums := linked_numbers h.linked (fun b hb => (h.world b (by simp at hb ⊢; exact .inr hb)).2)
  have hhas : ∀ b ∈ pre ++ [pb], W.Has b := fun b hb => (h.world b (List.mem_append_right _ hb)).1
  obtain ⟨ho1, ho2⟩ := hm.inv.pend _ _ hroot
  have hoW := (h.world old (List.mem_append_left _ ho2)).1
  have hI : OInv (fun b => b ∈ blocksOf ops ∨ b = pb) (s.handleReorg n root) :=
    ⟨fun x a ha => ⟨(hm.inv.pend x a ha).1, .inl (hm.inv.pend x a ha).2⟩,
      fun p q c k1 k2 => by obtain ⟨a, e1, e2⟩ := hm.inv.que p q c k1 k2; exact ⟨a, .inl e1, e2⟩, hm.inv.ne⟩
  have hne' : ∀ a ∈ blocksOf ops, a.hash ≠ pb.hash := hf.unseen pb (by simp)
  have hx : (s.handleReorg n root).excludes pb = false := by
    cases e : (s.handleReorg n root).excludes pb with
    | false => rfl
    | true =>
      rcases (excludes_iff _ pb).mp e with k | k
      · exact (h.allowed pb (by simp) (by rw [← hwl]; exact k)).elim
      · have k : s.blacklist.contains pb.parentHash = true := k
        rw [hbl] at k; cases k
  have hfin : (s.handleReorg n root).finished.contains pb.hash = false := by
    cases e : (s.handleReorg n root).finished.contains pb.hash with
    | false => rfl
    | true =>
      rcases hm.fin _ ((LRU.contains_iff _ _).mp e) with k | ⟨a, ha, k⟩
      · exact (hf.last pb (by simp) k).elim
      · exact (hne' a ha k).elim
  have hpl : pb.parentHash ≠ root := by
    intro e
    have h1 := hnums pre pb [] rfl
    have h2 : W.number pb.hash = W.number pb.parentHash + 1 := (h.world pb (by simp)).2
    rw [e] at h2
    have : 0 < pre.length := List.length_pos_iff.mpr hne
    omega
  have := (handle_reconnect (o := o) (s.handleReorg n root) pb old pre hI (.inr rfl) hx hfin hroot
    (fun e => hne' old ho2 (ho1.trans e.symm)) h.linked
    (fun a ha => ⟨hheld a ha, hne' a (hm.inv.pend _ _ (hheld a ha)).2⟩)
    (fun l1 a l2 e => by
      have h1 := hnums l1 a l2 e
      have h2 := (hhas a (by rw [e]; simp)).number
      have h3 := hoW.number
      rw [ho1] at h3
      omega) hw hpar hpl).ok hs
  obtain ⟨l, ext, h1, h2⟩ := this
  refine ⟨ext, ?_⟩
  rw [h2, seenBy_append, seenBy_append, seenBy_evicts h1]
  show seenBy (s.log ++ [_]) ++ [] ++ _ = _
  rw [seenBy_append]
  simp [seenBy]

/-- **C84** refuted: the two blocks sent before the notification are delivered again on top of the announced block, and are not sent. -/
theorem C84_refuted : ¬ ∀ (o : MapOrder) (W : World) (cfg : Config) (ops : List OOp) (s s' : OMP) (root : Hash) (chain : List PB) (n : Int),
    Resent o W cfg ops s root chain → s.run o (.reorg n root :: chain.map .block) = .ok s' →
    seenBy s'.log = seenBy s.log ++ .reorg n root :: chain.map (fun b => .update [b] []) := by
  intro h
  obtain ⟨s, hr, hs⟩ := ex_ok (r := (omp0 exOCfg).run .plain ((exRow.take 2).map OOp.block))
    (fun s => s.finished.contains (exHash 2) && s.finished.contains (exHash 3) && !s.blacklist.contains (exHash 1)) (by decide +kernel)
  simp only [Bool.and_eq_true, Bool.not_eq_true'] at hs
  obtain ⟨s', h1, h2, _⟩ := C84_remembered_partial (o := .plain) (s := s) (root := exHash 1) (chain := exRow.take 2) (n := 10) (by
    intro b hb
    simp only [exRow, List.take_succ_cons, List.take_zero, List.mem_cons, List.not_mem_nil, or_false] at hb
    rcases hb with rfl | rfl
    · exact hs.1.1
    · exact hs.1.2)
  have := h .plain (worldOf exRow 10) exOCfg ((exRow.take 2).map OOp.block) s s' (exHash 1) (exRow.take 2) 10
    ⟨⟨omp0 exOCfg, omp0_new _ (by decide), hr⟩, ⟨rfl, rfl, trivial⟩, by decide +kernel, by decide +kernel, hs.2⟩ h1
  rw [h2, seenBy_append] at this
  have := congrArg List.length this
  simp [seenBy, exRow] at this

/-- C84: after a notification for block 1, the new blocks 8 and 9 on top of it are sent although lighter than block 3. -/
example : ∃ s, (omp0 exOCfg).run .plain ((exRow.take 2).map OOp.block) = .ok s ∧
    Resent .plain (worldOf (exRow ++ [ob 8 1 11 6, ob 9 8 12 7]) 10) exOCfg ((exRow.take 2).map OOp.block) s (exHash 1) [ob 8 1 11 6, ob 9 8 12 7] ∧
    Fresh exOCfg ((exRow.take 2).map OOp.block) [ob 8 1 11 6, ob 9 8 12 7] := by
  obtain ⟨s, hr, hs⟩ := ex_ok (r := (omp0 exOCfg).run .plain ((exRow.take 2).map OOp.block))
    (fun s => !s.blacklist.contains (exHash 1)) (by decide +kernel)
  exact ⟨s, hr, ⟨⟨omp0 exOCfg, omp0_new _ (by decide), hr⟩, ⟨rfl, rfl, trivial⟩, by decide +kernel, by decide +kernel, by simpa using hs⟩,
    ⟨by decide +kernel, by decide +kernel, by decide +kernel⟩⟩

/-- C84: after blocks 2, 3 and a notification for block 2, block 4 brings block 3 back. -/
example : ∃ s, (omp0 exOCfg).run .plain ((exRow.take 2).map OOp.block) = .ok s ∧
    Resent .plain (worldOf exRow 10) exOCfg ((exRow.take 2).map OOp.block) s (exHash 2) ([ob 3 2 12 30] ++ [ob 4 3 13 40]) ∧
    Fresh exOCfg ((exRow.take 2).map OOp.block) [ob 4 3 13 40] ∧ s.pending.get? (exHash 2) = some (ob 2 1 11 20) ∧
    s.pending.get? (exHash 3) = some (ob 3 2 12 30) ∧ s.finished.contains (exHash 3) = true ∧ s.lastWeight < 40 ∧
    ∃ s', (s.handleReorg 11 (exHash 2)).handle .plain (ob 4 3 13 40) = .ok s' ∧
      (sent s' == [([exHash 2], []), ([exHash 3], []), ([exHash 3, exHash 4], [])]) = true := by
  refine ⟨_, rfl, ⟨⟨omp0 exOCfg, omp0_new _ (by decide), rfl⟩, ⟨rfl, rfl, trivial⟩, by decide +kernel, by decide +kernel, by decide +kernel⟩,
    ⟨by decide +kernel, by decide +kernel, by decide +kernel⟩, by rfl, by rfl, by decide +kernel, by decide +kernel, ex_ok _ (by decide +kernel)⟩

/-! ## C85 -/

/-- The block was sent to subscribers. -/
def Spec.Emitted (s : OMP) (h : Hash) : Prop := ∃ added removed, .update added removed ∈ s.log ∧ h ∈ hashes added

/-- No eviction was requested. -/
def Spec.NoEvictions (s : OMP) : Prop := ∀ n, .evictOlder n ∉ s.log

/-- Handling a block leaves the head where it is or puts it on a block that is remembered. -/
def HeadDone (s s' : OMP) : Prop := s'.lastHash = s.lastHash ∨ s'.lastHash ∈ s'.finished.items

theorem emitLoop_head {D : PB → Prop} (n : Nat) (s : OMP) (new : List PB) (hI : OInv D s) (hc : 0 < s.finished.cap) (h : s.lastHash ∈ s.finished.items) :
    Out (fun _ => True) (fun r => r.1.lastHash ∈ r.1.finished.items) (OMP.emitLoop o n s new) := by
  induction n generalizing s new with
  | zero => trivial
  | succ n ih =>
    unfold OMP.emitLoop
    refine (out_top _).bind ?_
    intro r _
    split
    · exact h
    · simp only []
      split
      · trivial
      · rename_i pb hp
        refine (finishSiblings_shrink (D := D) { s with tick := s.tick + 1 } pb (hI.of_maps rfl rfl)).bind ?_
        intro s1 h1
        have hI1 : OInv D s1 := (hI.of_maps (s' := { s with tick := s.tick + 1 }) rfl rfl).shrink h1
        have hfa := (finAdd_self (o := o) { s1 with lastHash := pb.hash, lastWeight := pb.weight } pb.hash
          (by show 0 < s1.finished.cap; rw [h1.cap]; exact hc)).and
          (finAdd_shrink o (F := Known D) { s1 with lastHash := pb.hash, lastWeight := pb.weight } ⟨pb, (hI.pend _ _ hp).2, rfl⟩)
        refine (hfa.mono (E' := fun _ => True) (fun _ _ => trivial) (fun _ h => h)).bind ?_
        rintro s2 ⟨h2, h3⟩
        refine ih s2 _ ((hI1.of_maps (s' := { s1 with lastHash := pb.hash, lastWeight := pb.weight }) rfl rfl).shrink h3) ?_ ?_
        · rw [h3.cap]; show 0 < s1.finished.cap; rw [h1.cap]; exact hc
        · rw [h3.lastHash]; exact h2

theorem prepareEmit_head {D : PB → Prop} (s : OMP) (new old : List PB) (hI : OInv D s) (hD : ∀ b ∈ new, D b) (hne : new ≠ []) (hc : 0 < s.finished.cap) :
    Out (fun _ => True) (fun s' => s'.lastHash ∈ s'.finished.items) (s.prepareEmit o new old) := by
  unfold OMP.prepareEmit
  refine Out.bind (P := fun s1 => OInv D s1 ∧ 0 < s1.finished.cap ∧ s1.lastHash ∈ s1.finished.items) ?_
    (fun s1 h1 => (emitLoop_head _ _ _ h1.1 h1.2.1 h1.2.2).bind (fun r hr => hr))
  unfold OMP.emitStart
  split
  · rename_i e; exact (hne (List.getLast?_eq_none_iff.mp e)).elim
  · rename_i newest e
    have hm : newest ∈ new := List.mem_of_getLast? e
    simp only []
    refine (finishSiblings_shrink (D := D) { s with lastHash := newest.hash, lastWeight := newest.weight } newest (hI.of_maps rfl rfl)).bind ?_
    intro s1 h1
    have hI1 : OInv D s1 := (hI.of_maps (s' := { s with lastHash := newest.hash, lastWeight := newest.weight }) rfl rfl).shrink h1
    have hc1 : 0 < s1.finished.cap := by rw [h1.cap]; exact hc
    have hfa := (finAdd_self (o := o) s1 newest.hash hc1).and (finAdd_shrink o (F := Known D) s1 ⟨newest, hD _ hm, rfl⟩)
    refine (hfa.mono (E' := fun _ => True) (fun _ _ => trivial) (fun s2 h2 => ?_))
    refine ⟨hI1.shrink h2.2, by rw [h2.2.cap]; exact hc1, ?_⟩
    rw [h2.2.lastHash, h1.lastHash]; exact h2.1

theorem handleAux_head {D : PB → Prop} (n : Nat) (s : OMP) (pb : PB) (rg : Bool) (hI : OInv D s) (hD : D pb) (hc : 0 < s.finished.cap) :
    Out (fun _ => True) (HeadDone s) (OMP.handleAux o n s pb rg) := by
  induction n generalizing s pb rg with
  | zero => trivial
  | succ n ih =>
    unfold OMP.handleAux
    split
    · exact .inl rfl
    · have hI1 := hI.insert hD
      unfold OMP.accept
      split
      · exact .inl rfl
      split
      · exact (prepareEmit_head _ _ _ hI1 (by simpa using hD) (by simp) hc).imp (fun _ h => .inr h)
      split
      · exact (prepareEmit_head _ _ _ hI1 (by simpa using hD) (by simp) hc).imp (fun _ h => .inr h)
      split
      · unfold OMP.onConnected
        split
        · rename_i last hl _
          have hf : Filed (s.pending.insert pb.hash pb) := fun h b hb => (hI1.pend h b hb).1
          refine (prepareReorg_out hf pb last).bind ?_
          intro x h1
          split
          · rename_i removed added
            obtain ⟨p, hp⟩ := h1 removed added rfl
            obtain ⟨pre, hpre⟩ := hp.last
            refine (prepareEmit_head _ _ _ hI1 ?_ (by rw [hpre]; simp) hc).imp (fun _ h => .inr h)
            intro b hb
            rcases hp.addedIn b hb with rfl | ⟨k, hk⟩
            · exact hD
            · exact (hI1.pend _ _ hk).2
          · exact .inl rfl
          · exact .inl rfl
        · refine (finAdd_shrink o (F := Known D) _ ⟨pb, hD, rfl⟩).bind ?_
          intro s2 h2
          have hI2 := hI1.shrink h2
          refine (out_top _).bind ?_
          intro x _
          split
          · exact .inl h2.lastHash
          · simp only []
            split
            · exact .inl h2.lastHash
            · rename_i c hcp
              refine (ih { s2 with tick := s2.tick + 1 } c true (hI2.of_maps rfl rfl) (hI2.pend _ _ hcp).2 (by show 0 < s2.finished.cap; rw [h2.cap]; exact hc)).bind ?_
              intro s3 h3
              rcases h3 with h3 | h3
              · exact .inl (h3.trans h2.lastHash)
              · exact .inr h3
      · unfold OMP.onUnconnected
        split
        · split
          · exact .inl rfl
          · exact (finAdd_shrink o (F := Known D) _ ⟨pb, hD, rfl⟩).bind (fun s2 h2 => .inl h2.lastHash)
        · exact .inl rfl

/-- **C85**, the part that holds. "done": the block was handled, or is the last one processed before this run. "pending parent": the block was
handled and is held. Any other answer is that of the message processor. -/
theorem C85_answers_partial {cfg : Config} {ops : List OOp} {s0 s : OMP} (hn : newOMP cfg = .ok s0) (hr : s0.run o ops = .ok s) (o' : MapOrder)
    (mp : MP) (h : Hash) :
    (s.whyNotReady o' mp h = .done → h = cfg.lastHash ∨ h ∈ hashes (blocksOf ops)) ∧
    (s.whyNotReady o' mp h = .pendingParent → ∃ b ∈ blocksOf ops, b.hash = h ∧ s.pending.get? h = some b) ∧
    (h ≠ cfg.lastHash → h ∉ hashes (blocksOf ops) → s.whyNotReady o' mp h = .mp (mp.whyNotReady o' h)) := by
  have hm := run_marks hn hr
  have hk : ∀ h, Known (· ∈ blocksOf ops) h → h ∈ hashes (blocksOf ops) := by
    rintro h ⟨b, h1, rfl⟩; exact List.mem_map_of_mem h1
  have hdone : s.finished.contains h = true → h = cfg.lastHash ∨ h ∈ hashes (blocksOf ops) := fun e =>
    (hm.fin _ ((LRU.contains_iff _ _).mp e)).imp id (hk h)
  have hpend : s.pending.contains h = true → ∃ b ∈ blocksOf ops, b.hash = h ∧ s.pending.get? h = some b := by
    intro e
    obtain ⟨b, hb⟩ := Option.isSome_iff_exists.mp e
    exact ⟨b, (hm.inv.pend _ _ hb).2, (hm.inv.pend _ _ hb).1, hb⟩
  unfold OMP.whyNotReady
  refine ⟨?_, ?_, ?_⟩
  · intro e
    split at e
    · rename_i hf; exact hdone hf
    · split at e <;> cases e
  · intro e
    split at e
    · cases e
    · split at e
      · rename_i hp; exact hpend hp
      · cases e
  · intro h1 h2
    rw [if_neg, if_neg]
    · intro e
      obtain ⟨b, k1, k2, _⟩ := hpend e
      exact h2 (k2 ▸ List.mem_map_of_mem k1)
    · intro e
      rcases hdone e with k | k
      · exact h1 k
      · exact h2 k

/-- **C85**: whenever handling a block moves the head, the answer for the new head is "done". -/
theorem C85_head_partial {cfg : Config} {ops : List OOp} {s0 s s' : OMP} {pb : PB} (hn : newOMP cfg = .ok s0) (hr : s0.run o ops = .ok s)
    (hs : s.handle o pb = .ok s') (hne : s'.lastHash ≠ s.lastHash) (o' : MapOrder) (mp : MP) : s'.whyNotReady o' mp s'.lastHash = .done := by
  have hm := run_marks hn hr
  have hb := (run_bound (o := o) s0 ops (newOMP_bound hn)).ok hr
  have hc := (newOMP_inv (D := fun _ => True) hn).2.2.2.2.2.2.2
  have hI : OInv (fun b => b ∈ blocksOf ops ∨ b = pb) s :=
    ⟨fun x a ha => ⟨(hm.inv.pend x a ha).1, .inl (hm.inv.pend x a ha).2⟩,
      fun p q c k1 k2 => by obtain ⟨a, e1, e2⟩ := hm.inv.que p q c k1 k2; exact ⟨a, .inl e1, e2⟩, hm.inv.ne⟩
  rcases (handleAux_head (o := o) _ s pb false hI (.inr rfl) (by rw [hb.1]; omega)).ok hs with h | h
  · exact (hne h).elim
  · unfold OMP.whyNotReady
    rw [if_pos ((LRU.contains_iff _ _).mpr h)]

/-- **C85** refuted: a lighter fork of block 2 is "done" although never sent. -/
theorem C85_refuted : ¬ ∀ (o : MapOrder) (cfg : Config) (ops : List OOp) (s0 s : OMP) (mp : MP) (h : Hash), newOMP cfg = .ok s0 →
    s0.run o ops = .ok s → h ≠ cfg.lastHash → s.whyNotReady o mp h = .done → Emitted s h := by
  intro h
  obtain ⟨s, hr, hs⟩ := ex_ok (r := (omp0 exOCfg).run .plain ([ob 2 1 11 20, ob 4 1 11 7].map OOp.block))
    (fun s => s.finished.contains (exHash 4) && s.log.all (fun x => match x with | .update a _ => !(hashes a).contains (exHash 4) | _ => true))
    (by decide +kernel)
  simp only [Bool.and_eq_true, List.all_eq_true] at hs
  obtain ⟨mp, _⟩ : ∃ mp, newMP exOCfg = .ok mp := ⟨_, rfl⟩
  obtain ⟨a, r, h1, h2⟩ := h .plain exOCfg _ _ s mp (exHash 4) (omp0_new _ (by decide)) hr (by decide) (by unfold OMP.whyNotReady; rw [if_pos hs.1])
  have := hs.2 _ h1
  simp [h2] at this

/-- Blocks 2-3 on block 1; 11 on 2 with the children 12 and 13, which arrive first; 14 on 12 and 15 on 14. -/
def exSide : List PB := [ob 2 1 11 20, ob 12 11 13 26, ob 13 11 13 27, ob 3 2 12 40, ob 11 2 12 25, ob 14 12 14 35, ob 15 14 15 50]

/-- **C85** refuted the other way: block 12 is sent in the reorg to block 15 and nothing was evicted, but the answer for it is "pending parent",
and its child 16, heavier than everything else, is not sent. -/
theorem C85_refuted_emitted : ¬ ∀ (o : MapOrder) (W : World) (cfg : Config) (ops : List OOp) (s0 s : OMP) (mp : MP) (h : Hash),
    newOMP cfg = .ok s0 → (∀ b ∈ blocksOf ops, W.Has b ∧ W.Numbered b ∧ W.Heavier b) → s0.run o ops = .ok s → NoEvictions s → Emitted s h →
    s.whyNotReady o mp h = .done := by
  intro h
  obtain ⟨s, hr, hs⟩ := ex_ok (r := (omp0 exOCfg).run .plain (exSide.map OOp.block))
    (fun s => !s.finished.contains (exHash 12) && s.pending.contains (exHash 12) &&
      s.log.all (fun x => match x with | .evictOlder _ => false | _ => true) &&
      s.log.any (fun x => match x with | .update a _ => (hashes a).contains (exHash 12) | _ => false))
    (by decide +kernel)
  simp only [Bool.and_eq_true, List.all_eq_true, List.any_eq_true, Bool.not_eq_true'] at hs
  obtain ⟨⟨⟨hs1, hs2⟩, hs3⟩, x, hx1, hx2⟩ := hs
  obtain ⟨mp, _⟩ : ∃ mp, newMP exOCfg = .ok mp := ⟨_, rfl⟩
  have := h .plain (worldOf exSide 10) exOCfg _ _ s mp (exHash 12) (omp0_new _ (by decide)) (by decide +kernel) hr
    (fun n hn => by have := hs3 _ hn; simp at this) (by
      cases x with
      | update a r => exact ⟨a, r, hx1, by simpa using hx2⟩
      | reorg n h => simp at hx2
      | evictOlder n => simp at hx2)
  unfold OMP.whyNotReady at this
  rw [if_neg (by rw [hs1]; simp), if_pos hs2] at this
  cases this

/-- C85: the consequence named above. -/
example : ∃ s, (omp0 exOCfg).run .plain ((exSide ++ [ob 16 12 14 60]).map OOp.block) = .ok s ∧ (s.lastHash == exHash 15) = true :=
  ex_ok _ (by decide +kernel)

end Verif
