import Verif.Proofs.NilWeight
import Verif.Proofs.OrderingEmpty
import Verif.Props.JsonText
import Verif.Props.OrderingEx
/-!
# C124: blocks without a weight
-/
namespace Verif
open Spec

/-! ## What is claimed -/

/-- The blocks among the events. -/
def Spec.nilBlocks (ops : List NOp) : List NPB := ops.filterMap (fun
  | .block b => some b
  | .reorg _ _ => none)

/-- A missing weight stands for zero (the number that `Model/Ordering.lean` is given in its place). -/
def Spec.ZeroForNil (b : NPB) : Prop := b.weighed = false → b.pb.weight = 0

/-- The block is not on top of the head, has not been processed, and is not excluded. -/
structure Spec.Aside (n : NOMP) (b : PB) : Prop where
  parent : b.parentHash ≠ n.s.lastHash
  new : b.hash ∉ n.s.finished.items
  allowed : ¬ Forbidden n.s.whitelist b ∧ n.s.blacklist.contains b.parentHash = false

/-! ## Runs -/

variable {o : MapOrder}

theorem nrun_agree {c : Prop} (n : NOMP) (ops : List NOp) (hz : Zeroed c n) (h1 : ∀ b ∈ nilBlocks ops, ZeroForNil b)
    (h2 : c → ∀ b ∈ nilBlocks ops, b.weighed = true) :
    NAgree c (fun a s => a.s = s ∧ Zeroed c a) (n.run o ops) (n.s.run o (ops.map NOp.plain)) := by
  induction ops generalizing n with
  | nil => exact .same ⟨rfl, hz⟩
  | cons x ops ih =>
    show NAgree c _ ((x :: ops).foldlM (NOMP.op o) n) (((x :: ops).map NOp.plain).foldlM (OMP.op o) n.s)
    rw [List.map_cons, List.foldlM_cons, List.foldlM_cons]
    refine NAgree.bind (R := fun a s => a.s = s ∧ Zeroed c a) ?_ ?_
    · cases x with
      | block b =>
        exact handleAux_agree _ n b false hz (h1 b (by simp [nilBlocks])) (fun hc => h2 hc b (by simp [nilBlocks]))
      | reorg num hash => exact .same ⟨rfl, hz.held, hz.last, hz.none, hz.keys⟩
    · rintro a s ⟨rfl, ha⟩
      have sub : ∀ b, b ∈ nilBlocks ops → b ∈ nilBlocks (x :: ops) := by
        intro b hb
        unfold nilBlocks at hb ⊢
        rw [List.filterMap_cons]
        split
        · exact hb
        · exact List.mem_cons_of_mem _ hb
      exact ih a ha (fun b hb => h1 b (sub b hb)) (fun hc b hb => h2 hc b (sub b hb))

theorem newNOMP_zeroed {c : Prop} {cfg : Config} {weighed : Bool} {n : NOMP} (hn : newNOMP cfg weighed = .ok n) (h1 : weighed = false → cfg.lastWeight = 0)
    (h2 : c → weighed = true) : Zeroed c n ∧ newOMP cfg = .ok n.s := by
  unfold newNOMP at hn
  split at hn
  · cases hn
  · rename_i s hs
    cases hn
    have e := hs
    unfold newOMP at e
    split at e
    · cases e
    · cases e
      refine ⟨⟨fun h b hb => ?_, fun h => h1 (by simpa using h), fun hc => ⟨fun h => by simp [GMap.contains], by simp [h2 hc]⟩, fun h b hb => ?_⟩, hs⟩ <;>
        simp at hb

/-- **C124**, all weights there: the ordering layer is the one that the other properties are about. -/
theorem C124_weights {cfg : Config} {n : NOMP} (hn : newNOMP cfg true = .ok n) {ops : List NOp} (hw : ∀ b ∈ nilBlocks ops, b.weighed = true) :
    ∃ s, newOMP cfg = .ok s ∧ (n.run o ops).map NOMP.s = s.run o (ops.map NOp.plain) := by
  obtain ⟨hz, hs⟩ := newNOMP_zeroed (c := True) hn (fun h => by cases h) (fun _ => rfl)
  refine ⟨n.s, hs, ?_⟩
  have h := nrun_agree (o := o) n ops hz (fun b hb h => by rw [hw b hb] at h; cases h) (fun _ => hw)
  generalize n.run o ops = x at h ⊢
  generalize n.s.run o (ops.map NOp.plain) = y at h ⊢
  cases h with
  | crash h => exact absurd trivial h
  | fault => rfl
  | same h => rw [← h.1]; rfl

/-- **C124**, weights missing: either the consumer crashes or it does what it does with zero in place of the missing weights.
Missing: that it does not crash, which is not so (`C124_crash_refuted`). -/
theorem C124_zero_partial {cfg : Config} {weighed : Bool} {n : NOMP} (hn : newNOMP cfg weighed = .ok n) (h0 : weighed = false → cfg.lastWeight = 0)
    {ops : List NOp} (hw : ∀ b ∈ nilBlocks ops, ZeroForNil b) :
    ∃ s, newOMP cfg = .ok s ∧ (n.run o ops = .error .panic ∨ (n.run o ops).map NOMP.s = s.run o (ops.map NOp.plain)) := by
  obtain ⟨hz, hs⟩ := newNOMP_zeroed (c := False) hn h0 (fun h => h.elim)
  refine ⟨n.s, hs, ?_⟩
  have h := nrun_agree (o := o) n ops hz hw (fun h => h.elim)
  generalize n.run o ops = x at h ⊢
  generalize n.s.run o (ops.map NOp.plain) = y at h ⊢
  cases h with
  | crash h => exact .inl rfl
  | fault => exact .inr rfl
  | same h => right; rw [← h.1]; rfl

/-! ## One chain -/

/-- A block on top of the head is sent at once when nothing waits, whatever is known of weights. -/
theorem nhandle_alone {n : NOMP} {b : NPB} (hq : NoneWaits n.s) (hk : PendKeys n.s) (he : n.s.excludes b.pb = false)
    (hn : b.pb.hash ∉ n.s.finished.items) (hp : b.pb.parentHash = n.s.lastHash ∨
      (n.s.initEmpty = true ∧ n.s.finished.len < 10 ∧ b.pb.parentHash ∉ n.s.finished.items)) :
    ∃ n', n.handle o b = .ok n' ∧ n.s.handle o b.pb = .ok n'.s := by
  obtain ⟨nils, hnils⟩ : ∃ x, x = if b.weighed then n.nils.erase b.pb.hash else n.nils.insert b.pb.hash () := ⟨_, rfl⟩
  let s1 : OMP := { n.s with pending := n.s.pending.insert b.pb.hash b.pb }
  have hemit : n.handle o b = NOMP.prepareEmit o ⟨s1, nils, n.lastNil⟩ [b.pb] [] (!b.weighed) := by
    unfold NOMP.handle NOMP.handleAux
    rw [if_neg (by simp [he]), ← hnils]
    unfold NOMP.accept
    rw [if_neg (by simpa [LRU.contains] using hn)]
    rcases hp with hp | ⟨h1, h2, h3⟩
    · rw [if_pos hp]
    · by_cases hp : b.pb.parentHash = n.s.lastHash
      · rw [if_pos hp]
      · rw [if_neg hp, if_pos (by simp [h1, h2, LRU.contains, h3])]
  have hemit' : n.s.handle o b.pb = s1.prepareEmit o [b.pb] [] := by
    unfold OMP.handle OMP.handleAux
    rw [if_neg (by simp [he])]
    unfold OMP.accept
    rw [if_neg (by simpa [LRU.contains] using hn)]
    rcases hp with hp | ⟨h1, h2, h3⟩
    · rw [if_pos hp]
    · by_cases hp : b.pb.parentHash = n.s.lastHash
      · rw [if_pos hp]
      · rw [if_neg hp, if_pos (by simp [h1, h2, LRU.contains, h3])]
  have hk1 : PendKeys { s1 with lastHash := b.pb.hash, lastWeight := b.pb.weight } := by
    intro h x hb
    simp only [s1, GMap.get?_insert] at hb
    split at hb
    · rename_i e; cases hb; exact e
    · exact hk _ _ hb
  have hsib : ({ s1 with lastHash := b.pb.hash, lastWeight := b.pb.weight } : OMP).finishSiblings o b.pb =
      .ok { s1 with lastHash := b.pb.hash, lastWeight := b.pb.weight } := by
    unfold OMP.finishSiblings
    have : ({ s1 with lastHash := b.pb.hash, lastWeight := b.pb.weight } : OMP).queued.get? b.pb.parentHash = none := hq _
    rw [this]
  obtain ⟨s2, e2, h2⟩ := (finAdd_out o { s1 with lastHash := b.pb.hash, lastWeight := b.pb.weight } (h := b.pb.hash)
    (F := fun _ => True) trivial hk1).total
  have hq2 : NoneWaits s2 := by
    intro h
    cases hx : s2.queued.get? h with
    | none => rfl
    | some q => exact ((hq h).symm.trans (h2.queued _ _ hx)).symm
  have hstart : s1.emitStart o [b.pb] = .ok s2 := by
    unfold OMP.emitStart
    simp only [List.getLast?_singleton]
    show (do let s ← ({ s1 with lastHash := b.pb.hash, lastWeight := b.pb.weight } : OMP).finishSiblings o b.pb; s.finAdd o b.pb.hash) = _
    rw [hsib]
    exact e2
  have hloop : s2.emitLoop o (s2.queued.size + 2) [b.pb] = .ok (s2, [b.pb]) := by
    unfold OMP.emitLoop OMP.getPendingChild
    rw [hq2]
    rfl
  have hloop' : NOMP.emitLoop o (s2.queued.size + 2) ⟨s2, nils, !b.weighed⟩ [b.pb] = .ok (⟨s2, nils, !b.weighed⟩, [b.pb]) := by
    unfold NOMP.emitLoop NOMP.getPendingChild
    have : (⟨s2, nils, !b.weighed⟩ : NOMP).s.queued.get? (⟨s2, nils, !b.weighed⟩ : NOMP).s.lastHash = none := hq2 _
    rw [this]
    rfl
  refine ⟨⟨{ s2 with log := s2.log ++ [.update [b.pb] []] }, nils, !b.weighed⟩, ?_, ?_⟩
  · rw [hemit]
    unfold NOMP.prepareEmit
    show s1.emitStart o [b.pb] >>= _ = _
    rw [hstart]
    show (NOMP.emitLoop o (s2.queued.size + 2) ⟨s2, nils, !b.weighed⟩ [b.pb]) >>= _ = _
    rw [hloop']
    rfl
  · rw [hemit']
    unfold OMP.prepareEmit
    rw [hstart]
    show s2.emitLoop o (s2.queued.size + 2) [b.pb] >>= _ = _
    rw [hloop]
    rfl

/-- The blocks `bs` can follow: nothing waits, none is known or excluded. -/
structure NReady (s : OMP) (bs : List PB) : Prop where
  waits : NoneWaits s
  keys : PendKeys s
  fresh : ∀ b ∈ bs, b.hash ∉ s.finished.items
  white : ∀ b ∈ bs, ¬ Forbidden s.whitelist b
  black : ∀ h, s.blacklist.contains h = false

theorem nrun_chain (n : NOMP) (bs : List NPB) (hr : NReady n.s (bs.map NPB.pb)) (hd : (hashes (bs.map NPB.pb)).Nodup)
    (hl : Linked n.s.lastHash (bs.map NPB.pb) ∨ ∃ b rest, bs = b :: rest ∧ n.s.initEmpty = true ∧ n.s.finished.len < 10 ∧
      b.pb.parentHash ∉ n.s.finished.items ∧ Linked b.pb.hash (rest.map NPB.pb)) :
    ∃ n', n.run o (bs.map NOp.block) = .ok n' ∧ n'.s.updates = n.s.updates ++ bs.map (fun b => ([b.pb], [])) := by
  induction bs generalizing n with
  | nil => exact ⟨n, rfl, by simp⟩
  | cons b bs ih =>
    have he : n.s.excludes b.pb = false := by
      cases he : n.s.excludes b.pb with
      | false => rfl
      | true =>
        rcases (excludes_iff n.s b.pb).mp he with h | h
        · exact absurd h (hr.white b.pb (by simp))
        · rw [hr.black] at h; cases h
    have hp : b.pb.parentHash = n.s.lastHash ∨
        (n.s.initEmpty = true ∧ n.s.finished.len < 10 ∧ b.pb.parentHash ∉ n.s.finished.items) := by
      rcases hl with hl | ⟨b', rest, e, h⟩
      · exact .inl hl.1
      · cases e; exact .inr ⟨h.1, h.2.1, h.2.2.1⟩
    have hl' : Linked b.pb.hash (bs.map NPB.pb) := by
      rcases hl with hl | ⟨b', rest, e, h⟩
      · exact hl.2
      · cases e; exact h.2.2.2
    have hf := hr.fresh b.pb (by simp)
    obtain ⟨n1, e1, e2⟩ := nhandle_alone (o := o) hr.waits hr.keys he hf hp
    obtain ⟨s', e3, q1, q2, q3, q4, q5, q6, q7, q8⟩ := handle_alone (o := o) hr.waits hr.keys he hf hp
    rw [e2] at e3
    cases e3
    simp only [hashes, List.map_cons, List.nodup_cons] at hd
    have hr1 : NReady n1.s (bs.map NPB.pb) := by
      refine ⟨q1, q2, fun x hx hm => ?_, fun x hx => q6 ▸ hr.white x (by simp [List.mem_map.mp hx]), fun h => q7 ▸ hr.black h⟩
      rw [q4] at hm
      rcases LRU.mem_of_mem_add hm with h | h
      · exact hd.1 (h ▸ List.mem_map_of_mem hx)
      · exact hr.fresh x (List.mem_cons_of_mem _ hx) h
    obtain ⟨n', e, hu⟩ := ih n1 hr1 hd.2 (.inl (q3.symm ▸ hl'))
    refine ⟨n', ?_, ?_⟩
    · show (NOp.block b :: bs.map NOp.block).foldlM (NOMP.op o) n = _
      rw [List.foldlM_cons]
      show n.handle o b >>= _ = _
      rw [e1]
      exact e
    · rw [hu, q8]
      simp

theorem newNOMP_ready {cfg : Config} {weighed : Bool} {n : NOMP} (hn : newNOMP cfg weighed = .ok n) {bs : List PB}
    (h1 : ∀ b ∈ bs, b.hash ≠ cfg.lastHash) (h2 : ∀ b ∈ bs, ¬ Forbidden cfg.whitelist b) :
    NReady n.s bs ∧ n.s.lastHash = cfg.lastHash ∧ n.s.updates = [] ∧ n.s.finished.items = [cfg.lastHash] ∧
      n.s.initEmpty = decide (cfg.lastHash = Hash.zero) := by
  unfold newNOMP at hn
  split at hn
  · cases hn
  · rename_i s hs
    cases hn
    unfold newOMP at hs
    split at hs
    · cases hs
    · rename_i hpos
      cases hs
      have hf : ((LRU.new (2 * cfg.reorgThreshold).toNat).add cfg.lastHash).1.items = [cfg.lastHash] := by
        unfold LRU.new LRU.add
        rw [if_neg (by simp), if_pos (by show 0 < (2 * cfg.reorgThreshold).toNat; omega)]
      refine ⟨⟨fun h => by simp, fun h b hb => by simp at hb, fun b hb hm => ?_, h2, fun h => by simp [GMap.contains]⟩, rfl, rfl, hf, rfl⟩
      rw [hf] at hm
      simp only [List.mem_singleton] at hm
      exact h1 b hb hm

/-- **C124**, one chain: blocks that come one after the other on top of the last processed one are sent, with or without weights. -/
theorem C124_chain {cfg : Config} {weighed : Bool} {n : NOMP} (hn : newNOMP cfg weighed = .ok n) {bs : List NPB}
    (hl : Linked cfg.lastHash (bs.map NPB.pb)) (hd : (cfg.lastHash :: hashes (bs.map NPB.pb)).Nodup)
    (hw : ∀ b ∈ bs, ¬ Forbidden cfg.whitelist b.pb) :
    ∃ n', n.run o (bs.map NOp.block) = .ok n' ∧ n'.s.updates = bs.map (fun b => ([b.pb], [])) := by
  rw [List.nodup_cons] at hd
  obtain ⟨h1, h2, h3, _, _⟩ := newNOMP_ready hn (bs := bs.map NPB.pb) (fun b hb e => hd.1 (e ▸ List.mem_map_of_mem hb))
    (fun b hb => by obtain ⟨x, hx, rfl⟩ := List.mem_map.mp hb; exact hw x hx)
  obtain ⟨n', e, hu⟩ := nrun_chain (o := o) n bs h1 hd.2 (.inl (h2.symm ▸ hl))
  exact ⟨n', e, by rw [hu, h3, List.nil_append]⟩

/-- Block 1 was processed last; of its descendants 2 and 3 the first has no weight. -/
example : ∃ n, newNOMP exOCfg true = .ok n ∧ Linked exOCfg.lastHash ([⟨ob 2 1 11 0, false⟩, ⟨ob 3 2 12 7, true⟩].map NPB.pb) ∧
    (exOCfg.lastHash :: hashes ([⟨ob 2 1 11 0, false⟩, ⟨ob 3 2 12 7, true⟩].map NPB.pb)).Nodup ∧
    ∀ b ∈ [(⟨ob 2 1 11 0, false⟩ : NPB), ⟨ob 3 2 12 7, true⟩], ¬ Forbidden exOCfg.whitelist b.pb := by
  refine ⟨_, rfl, ⟨rfl, rfl, trivial⟩, by decide +kernel, ?_⟩
  rintro b - ⟨h, hf, -⟩
  simp [exOCfg, exCfg] at hf

/-- **C124**, a consumer that has processed nothing: the same from any first block on. -/
theorem C124_fresh {cfg : Config} {weighed : Bool} {n : NOMP} (hn : newNOMP cfg weighed = .ok n) (h0 : cfg.lastHash = Hash.zero) {b : NPB} {bs : List NPB}
    (hl : Linked b.pb.hash (bs.map NPB.pb)) (hp : b.pb.parentHash ≠ Hash.zero) (hd : (Hash.zero :: hashes ((b :: bs).map NPB.pb)).Nodup)
    (hw : ∀ x ∈ b :: bs, ¬ Forbidden cfg.whitelist x.pb) :
    ∃ n', n.run o ((b :: bs).map NOp.block) = .ok n' ∧ n'.s.updates = (b :: bs).map (fun b => ([b.pb], [])) := by
  rw [List.nodup_cons] at hd
  obtain ⟨h1, h2, h3, h4, h5⟩ := newNOMP_ready hn (bs := (b :: bs).map NPB.pb) (fun b hb e => hd.1 (h0 ▸ e ▸ List.mem_map_of_mem hb))
    (fun b hb => by obtain ⟨x, hx, rfl⟩ := List.mem_map.mp hb; exact hw x hx)
  obtain ⟨n', e, hu⟩ := nrun_chain (o := o) n (b :: bs) h1 hd.2 (.inr ⟨b, bs, rfl, by rw [h5]; simpa using h0,
    by show n.s.finished.items.length < 10; rw [h4]; simp, by rw [h4, h0]; simpa using hp, hl⟩)
  exact ⟨n', e, by rw [hu, h3, List.nil_append]⟩

example : ∃ n, newNOMP exCfg false = .ok n ∧ exCfg.lastHash = Hash.zero ∧ Linked (ob 2 1 11 0).hash ([⟨ob 3 2 12 0, false⟩].map NPB.pb) ∧
    (ob 2 1 11 0).parentHash ≠ Hash.zero ∧ (Hash.zero :: hashes ([⟨ob 2 1 11 0, false⟩, ⟨ob 3 2 12 0, false⟩].map NPB.pb)).Nodup ∧
    ∀ b ∈ [(⟨ob 2 1 11 0, false⟩ : NPB), ⟨ob 3 2 12 0, false⟩], ¬ Forbidden exCfg.whitelist b.pb := by
  refine ⟨_, rfl, rfl, ⟨rfl, trivial⟩, by decide +kernel, by decide +kernel, ?_⟩
  rintro b - ⟨h, hf, -⟩
  simp [exCfg] at hf

/-! ## The crash -/

/-- **C124** is not so: once a consumer has a head, a block aside of it that has no weight where the head has one, or one where the head has
none, crashes it if the block's parent is unknown or the head is still held. -/
theorem C124_crash_refuted (n : NOMP) (b : NPB) (ha : Aside n b.pb) (hi : n.s.initEmpty = false) (hw : b.weighed = n.lastNil)
    (hh : b.pb.parentHash ∈ n.s.finished.items → n.s.pending.get? n.s.lastHash ≠ none) : n.handle o b = .error .panic := by
  have he : n.s.excludes b.pb = false := by
    cases he : n.s.excludes b.pb with
    | false => rfl
    | true =>
      rcases (excludes_iff n.s b.pb).mp he with h | h
      · exact absurd h ha.allowed.1
      · rw [ha.allowed.2] at h; cases h
  have hlt : ∀ x y, nilLt (!b.weighed) x n.lastNil y = .error .panic := by
    intro x y; rw [← hw]; cases b.weighed <;> rfl
  have hlt' : ∀ x y, nilLt n.lastNil x (!b.weighed) y = .error .panic := by
    intro x y; rw [← hw]; cases b.weighed <;> rfl
  unfold NOMP.handle NOMP.handleAux
  rw [if_neg (by simp [he])]
  generalize (if b.weighed = true then n.nils.erase b.pb.hash else n.nils.insert b.pb.hash ()) = nils
  unfold NOMP.accept
  rw [if_neg (by simpa [LRU.contains] using ha.new), if_neg ha.parent, if_neg (by simp [hi])]
  split
  · rename_i hf
    have hf : b.pb.parentHash ∈ n.s.finished.items := by simpa [LRU.contains] using hf
    unfold NOMP.onConnected
    have hp : ∃ x, (n.s.pending.insert b.pb.hash b.pb).get? n.s.lastHash = some x := by
      rw [GMap.get?_insert]
      split
      · exact ⟨_, rfl⟩
      · cases hx : n.s.pending.get? n.s.lastHash with
        | some x => exact ⟨x, rfl⟩
        | none => exact absurd hx (hh hf)
    obtain ⟨x, hx⟩ := hp
    simp only [hx, hlt']
    rfl
  · unfold NOMP.onUnconnected
    simp only [hlt]
    rfl

/-- Both kinds of the crash occur: a block without a weight beside the head; and any block whose parent is unknown, where the application gave
the last hash without its weight. In both the consumer goes on when the missing weight is zero. -/
theorem C124_runs_refuted :
    (∃ n, newNOMP exOCfg true = .ok n ∧
      n.run .plain [.block ⟨ob 2 1 11 10, true⟩, .block ⟨ob 4 1 11 0, false⟩] = .error .panic ∧
      ∃ s, n.s.run .plain [.block (ob 2 1 11 10), .block (ob 4 1 11 0)] = .ok s) ∧
    (∃ n, newNOMP { exOCfg with lastWeight := 0 } false = .ok n ∧ n.run .plain [.block ⟨ob 3 2 12 20, true⟩] = .error .panic ∧
      ∃ s, n.s.run .plain [.block (ob 3 2 12 20)] = .ok s) := by
  refine ⟨⟨_, rfl, ex_err (by decide +kernel), ?_⟩, ⟨_, rfl, ex_err (by decide +kernel), ?_⟩⟩
  · obtain ⟨s, h, _⟩ := ex_ok (r := (omp0 exOCfg).run .plain [.block (ob 2 1 11 10), .block (ob 4 1 11 0)]) (fun _ : OMP => true) (by decide +kernel)
    exact ⟨s, h⟩
  · obtain ⟨s, h, _⟩ := ex_ok (r := (omp0 { exOCfg with lastWeight := 0 }).run .plain [.block (ob 3 2 12 20)]) (fun _ : OMP => true) (by decide +kernel)
    exact ⟨s, h⟩

/-- The hypotheses of `C124_crash_refuted` hold in the first of the two runs. -/
example : ∃ n0 n, newNOMP exOCfg true = .ok n0 ∧ n0.run .plain [.block ⟨ob 2 1 11 10, true⟩] = .ok n ∧
    (n.s.initEmpty = false ∧ n.lastNil = false ∧ (ob 4 1 11 0).parentHash ≠ n.s.lastHash ∧ (ob 4 1 11 0).hash ∉ n.s.finished.items ∧
      n.s.blacklist.contains (ob 4 1 11 0).parentHash = false ∧ n.s.pending.contains n.s.lastHash = true) := by
  obtain ⟨n, h, h'⟩ := ex_ok (r := (⟨omp0 exOCfg, GMap.empty, false⟩ : NOMP).run .plain [.block ⟨ob 2 1 11 10, true⟩])
    (fun n => decide (n.s.initEmpty = false ∧ n.lastNil = false ∧ (ob 4 1 11 0).parentHash ≠ n.s.lastHash ∧ (ob 4 1 11 0).hash ∉ n.s.finished.items ∧
      n.s.blacklist.contains (ob 4 1 11 0).parentHash = false ∧ n.s.pending.contains n.s.lastHash = true)) (by decide +kernel)
  exact ⟨_, n, rfl, h, of_decide_eq_true h'⟩

/-! ## Where such blocks come from -/

/-- **C124**, over a websocket: the text of a block with `null` for a weight is taken for a block without a weight. -/
theorem C124_text (w : JOpt) {subid : Nat} (hs : subid < 2 ^ 64) (b : TBatch) (hn : b.number < 2 ^ 64) (n : JNote) :
    ∃ i j, (n.read (noteText subid (objText [(str "type", quoted (str "batch")), (str "batch", batchText b.number none b.hash b.parentHash
        (mapText w (fun v => quoted (hexDataText v)) b.values) (deletesText w b.deletes)
        (if b.batches.entries = [] ∧ w.nilBatches then nullText else mapText w hashText b.batches))]))).item subid = some i ∧
      i.type = str "batch" ∧ i.batch = some j ∧ j.weight = none ∧ j.hash = b.hash ∧ j.number = b.number ∧ j.parentHash = b.parentHash := by
  rw [two64] at hs hn
  obtain ⟨dj, hd1, hd2⟩ := parses_deletes w b.deletes
  obtain ⟨bj, hb1, hb2⟩ := parses_batches w b.batches
  have hp := parses_typed (ty := "batch") (name := "batch") (parses_batch (parses_map w parses_bytes b.values) hd1 hb1 b.number none b.hash b.parentHash)
    (by decide +kernel) (by decide +kernel) (by decide +kernel)
  have hd := decode_batch (number := b.number) hn (weight := none) (wt := none) rfl b.hash b.parentHash (putMap_values b.values) hd2 hb2
  have hi := item_note hp hs n
  rw [decItem_batch (by decide +kernel) hd] at hi
  exact ⟨_, _, hi, rfl, rfl, rfl, rfl, rfl, rfl⟩

end Verif
