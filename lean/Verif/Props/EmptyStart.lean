import Verif.Proofs.OrderingEmpty
import Verif.Proofs.OrderingBound
import Verif.Props.OrderingMore
/-!
# C101: a consumer that starts without a last block

`Spec.detached h log` counts the updates a subscriber with the head `h` cannot place: they remove nothing, and their first block
is not on top of the head.
-/
namespace Verif
open Spec

variable {o : MapOrder}

/-- The update removes nothing and is not on top of the head `h`. -/
def Spec.isDetached (h : Hash) (added removed : List PB) : Bool :=
  removed.isEmpty && match added with
    | [] => false
    | a :: _ => decide (a.parentHash ≠ h)

/-- How many of the updates connect to nothing. -/
def Spec.detached : Hash → List OOut → Nat
  | _, [] => 0
  | h, .update added removed :: l => (isDetached h added removed).toNat + detached (endOf h added) l
  | _, .reorg _ h :: l => detached h l
  | h, .evictOlder _ :: l => detached h l

theorem detached_append (h : Hash) (a b : List OOut) : detached h (a ++ b) = detached h a + detached (headAfter h a) b := by
  induction a generalizing h with
  | nil => simp [detached, headAfter]
  | cons x a ih => cases x <;> simp only [List.cons_append, detached, headAfter, ih, Nat.add_assoc]

theorem detached_evicts {l : List OOut} (hl : OnlyEvicts l) (h : Hash) : detached h l = 0 := by
  induction l with
  | nil => rfl
  | cons x l ih =>
    obtain ⟨n, rfl⟩ := hl x (by simp)
    exact ih (fun y hy => hl y (by simp [hy]))

theorem new_add_items {n : Nat} (h : 0 < n) (k : Hash) : ((LRU.new n).add k).1.items = [k] := by
  unfold LRU.add
  rw [if_neg (by simp [LRU.new]), if_pos (by exact h)]
  rfl

/-- What holds of the counts all along. -/
structure EarlyInv (c : Nat) (D : PB → Prop) (start : Hash) (s : OMP) : Prop where
  inv : OInv D s
  keeps : Keeps [] c s
  head : headAfter start s.log = s.lastHash
  none : s.initEmpty = false → detached start s.log = 0
  few : 10 ≤ c → detached start s.log ≤ 9 ∧ detached start s.log + 1 ≤ s.finished.len

theorem early_run {W : World} {cfg : Config} {ops : List OOp} {s0 s : OMP} (hW : FromWorld W (blocksOf ops))
    (hn : newOMP cfg = .ok s0) (hr : s0.run o ops = .ok s) :
    EarlyInv (2 * cfg.reorgThreshold).toNat (· ∈ blocksOf ops) cfg.lastHash s ∧ s.initEmpty = decide (cfg.lastHash = Hash.zero) := by
  obtain ⟨i1, i2, _, _, i5, i6, i7, i8⟩ := newOMP_inv (D := (· ∈ blocksOf ops)) hn
  have hpos : 0 < (2 * cfg.reorgThreshold).toNat := by omega
  have hfin : s0.finished.items = [cfg.lastHash] := by
    unfold newOMP at hn
    split at hn
    · simp at hn
    · simp only [Except.ok.injEq] at hn
      subst hn
      exact new_add_items hpos _
  refine orun_ind (o := o) (P := fun _ s => EarlyInv (2 * cfg.reorgThreshold).toNat (· ∈ blocksOf ops) cfg.lastHash s ∧
    s.initEmpty = decide (cfg.lastHash = Hash.zero)) ?_ ?_ hr
  · refine ⟨⟨i1, ⟨i7, by rw [hfin]; simp, by rw [hfin]; simp only [List.length_singleton]; omega, .inl (by simp)⟩,
      by rw [i5, i2]; rfl, by rw [i5]; intro _; rfl, ?_⟩, i6⟩
    intro _
    rw [i5, LRU.len, hfin]
    exact ⟨by simp [detached], by simp [detached]⟩
  · rintro pre op post s s' e ⟨hE, hi⟩ hop
    cases op with
    | reorg num hash =>
      simp only [OMP.op, OMP.handleReorg, Except.ok.injEq] at hop
      subst hop
      have hd : detached cfg.lastHash (s.log ++ [.reorg num hash]) = detached cfg.lastHash s.log := by
        rw [detached_append]; rfl
      exact ⟨⟨hE.inv.of_maps rfl rfl, hE.keeps.of_fin rfl, by rw [headAfter_append]; rfl, by rw [hd]; exact hE.none,
        by rw [hd]; exact hE.few⟩, hi⟩
    | block pb =>
      have hD := mem_blocksOf e
      have hh := op_block_out (N := False) (D := (· ∈ blocksOf ops)) (fun h => h.elim) hE.inv (fun _ => hD) hop
      have hk := (handleAux_keeps (V := s.finished.items) (o := o) hpos (s.queued.size + 2) s pb false
        ⟨hE.keeps.cap, hE.keeps.nodup, hE.keeps.len, .inl (fun _ h => h)⟩).ok hop
      have ht := (handleAux_tame (o := o) hW.hashed hpos (s.queued.size + 2) s pb false hE.inv (fun _ => hD) hE.keeps.cap
        hE.keeps.nodup hE.keeps.len (by simp)).ok hop
      have hlen : s.finished.len ≤ s'.finished.len := by
        rcases hk.has with h | h
        · exact nodup_length_le hE.keeps.nodup h
        · unfold LRU.len; rw [h]; exact hE.keeps.len
      have hhead : headAfter cfg.lastHash s'.log = s'.lastHash := by
        rcases hh.out with ⟨a, _, l, hl, el⟩ | ⟨added, removed, hu⟩
        · rw [el, headAfter_append, headAfter_evicts hl, hE.head, a]
        · obtain ⟨l, hl, el⟩ := hu.log
          rw [el, headAfter_append, headAfter_append, headAfter_evicts hl, hE.head, hu.lastHash]
          rfl
      refine ⟨⟨hh.inv, ⟨hk.cap, hk.nodup, hk.len, .inl (by simp)⟩, hhead, ?_, ?_⟩, hh.initEmpty.trans hi⟩
      all_goals
        rcases ht with (⟨l, hl, el⟩ | ⟨l, a, as, r, hl, el, hp⟩) | ⟨_, ⟨l, a, as, hl, el⟩, h1, h2, h3⟩
      · intro h
        rw [el, detached_append, detached_evicts hl, hE.none (by rw [← hh.initEmpty]; exact h)]
      · intro h
        rw [el, detached_append, detached_append, detached_evicts hl, hE.none (by rw [← hh.initEmpty]; exact h), headAfter_append,
          headAfter_evicts hl, hE.head]
        rcases hp with hp | hp
        · simp [detached, isDetached, hp]
        · simp [detached, isDetached, hp]
      · intro h
        rw [hh.initEmpty, h1] at h
        simp at h
      · intro h
        rw [el, detached_append, detached_evicts hl]
        have := hE.few h
        omega
      · intro h
        rw [el, detached_append, detached_append, detached_evicts hl, headAfter_append, headAfter_evicts hl, hE.head]
        have : detached s.lastHash [.update (a :: as) r] = 0 := by
          rcases hp with hp | hp
          · simp [detached, isDetached, hp]
          · simp [detached, isDetached, hp]
        have := hE.few h
        omega
      · intro h
        rw [el, detached_append, detached_append, detached_evicts hl, headAfter_append, headAfter_evicts hl, hE.head]
        have hb : detached s.lastHash [.update (a :: as) []] ≤ 1 := by
          simp only [detached, Nat.add_zero]
          exact Bool.toNat_le _
        have := hE.few h
        omega

/-- **C101**, the part that holds: a consumer that starts without a last block sends at most nine updates that connect to nothing,
provided the reorg threshold is at least five; one that starts with a last block sends none. Missing: reorg thresholds below five
(refuted below). -/
theorem C101_partial {W : World} {cfg : Config} {ops : List OOp} {s0 s : OMP} (hW : FromWorld W (blocksOf ops))
    (ht : 5 ≤ cfg.reorgThreshold) (hn : newOMP cfg = .ok s0) (hr : s0.run o ops = .ok s) : detached cfg.lastHash s.log ≤ 9 :=
  ((early_run hW hn hr).1.few (by omega)).1

/-- **C101**, for a consumer that starts with a last block. -/
theorem C101_resumed_partial {W : World} {cfg : Config} {ops : List OOp} {s0 s : OMP} (hW : FromWorld W (blocksOf ops))
    (h0 : cfg.lastHash ≠ Hash.zero) (hn : newOMP cfg = .ok s0) (hr : s0.run o ops = .ok s) : detached cfg.lastHash s.log = 0 :=
  (early_run hW hn hr).1.none (by rw [(early_run hW hn hr).2]; simpa using h0)

/-- Every block is on top of the one before it, or has an unknown parent and comes while the early phase lasts: among the first
nine blocks, or any time when the reorg threshold is below five. -/
def Spec.StartsFreely (cfg : Config) (bs : List PB) : Prop :=
  ∀ l1 b l2, bs = l1 ++ b :: l2 → b.parentHash = endOf cfg.lastHash l1 ∨
    ((l1.length ≤ 8 ∨ cfg.reorgThreshold < 5) ∧ b.parentHash ≠ Hash.zero ∧ b.parentHash ∉ hashes l1)

/-- **C101**, going ahead: without a last block, such blocks are all sent at once, each by itself, in the order of arrival. -/
theorem C101_starts_partial {cfg : Config} {bs : List PB} {s0 : OMP} (h0 : cfg.lastHash = Hash.zero)
    (hf : ∀ b ∈ bs, ¬ Forbidden cfg.whitelist b) (hz : ∀ b ∈ bs, b.hash ≠ Hash.zero) (hd : (hashes bs).Nodup)
    (hs : StartsFreely cfg bs) (hn : newOMP cfg = .ok s0) :
    ∃ s, s0.run o (bs.map OOp.block) = .ok s ∧ s.updates = bs.map (fun b => ([b], [])) := by
  obtain ⟨i1, i2, _, i4, i5, i6, i7, i8⟩ := newOMP_inv (D := fun _ => True) hn
  have hbd := newOMP_bound hn
  have h1 : s0.finished.items = [Hash.zero] ∧ s0.blacklist = GMap.empty ∧ NoneWaits s0 := by
    unfold newOMP at hn
    split at hn
    · simp at hn
    · simp only [Except.ok.injEq] at hn
      subst hn
      have hpos : 0 < (2 * cfg.reorgThreshold).toNat := by omega
      refine ⟨?_, rfl, fun _ => rfl⟩
      rw [← h0]; exact new_add_items hpos _
  have hall : ∀ pre post, bs = pre ++ post → ∀ s1 : OMP, NoneWaits s1 → PendKeys s1 → s1.lastHash = endOf cfg.lastHash pre →
      s1.initEmpty = true → s1.whitelist = cfg.whitelist → s1.blacklist = GMap.empty →
      Bound (2 * cfg.reorgThreshold).toNat cfg.reorgThreshold s1 → s1.finished.items.length ≤ pre.length + 1 →
      (∀ h ∈ s1.finished.items, h = Hash.zero ∨ h ∈ hashes pre) → s1.updates = pre.map (fun b => ([b], [])) →
      ∃ s, s1.run o (post.map OOp.block) = .ok s ∧ s.updates = bs.map (fun b => ([b], [])) := by
    intro pre post
    induction post generalizing pre with
    | nil =>
      intro e s1 _ _ _ _ _ _ _ _ _ hu
      simp only [List.append_nil] at e
      exact ⟨s1, rfl, by rw [e]; exact hu⟩
    | cons b post ih =>
      intro e s1 g1 g2 g3 g4 g5 g6 g7 g8 g9 hu
      have hb : b ∈ bs := by rw [e]; simp
      have hnot : b.hash ∉ hashes pre := by
        intro hm
        rw [e, hashes, List.map_append, List.map_cons] at hd
        exact (List.nodup_append.mp hd).2.2 _ hm _ (by simp) rfl
      have hnew : b.hash ∉ s1.finished.items := by
        intro hm
        rcases g9 _ hm with h | h
        · exact hz b hb h
        · exact hnot h
      have he : s1.excludes b = false := by
        cases hx : s1.excludes b with
        | false => rfl
        | true =>
          rcases (excludes_iff s1 b).mp hx with h | h
          · rw [g5] at h; exact (hf b hb h).elim
          · rw [g6] at h; simp [GMap.empty, GMap.contains, GMap.get?, GMap.look] at h
      have hp : b.parentHash = s1.lastHash ∨ (s1.initEmpty = true ∧ s1.finished.len < 10 ∧ b.parentHash ∉ s1.finished.items) := by
        rcases hs pre b post e with h | ⟨h, h2, h3⟩
        · exact .inl (h.trans g3.symm)
        · refine .inr ⟨g4, ?_, ?_⟩
          · have := g7.2.1
            unfold LRU.len
            omega
          · intro hm
            rcases g9 _ hm with h | h
            · exact h2 h
            · exact h3 h
      obtain ⟨s', e', q1, q2, q3, q4, q5, q6, q7, q8⟩ := handle_alone (o := o) g1 g2 he hnew hp
      have hbound : Bound (2 * cfg.reorgThreshold).toNat cfg.reorgThreshold s' := (handleAux_bound (o := o) _ _ _ _ g7).ok e'
      obtain ⟨s, r1, r2⟩ := ih (pre ++ [b]) (by simp [e]) s' q1 q2 (by rw [q3, endOf_append]; rfl) (q5.trans g4) (q6.trans g5) (q7.trans g6)
        hbound (by
          rw [q4]
          unfold LRU.add
          split
          · exact (hnew (by assumption)).elim
          · split
            · simp only [List.length_cons, List.length_append, List.length_nil]; omega
            · simp only [List.length_dropLast, List.length_cons, List.length_append, List.length_nil]; omega)
        (by
          intro h hm
          rw [q4] at hm
          rcases LRU.mem_of_mem_add hm with rfl | hm
          · right; simp [hashes]
          · rcases g9 _ hm with h | h
            · exact .inl h
            · right; simp only [hashes, List.map_append, List.mem_append]; exact .inl h)
        (by rw [q8, hu]; simp)
      refine ⟨s, ?_, r2⟩
      show (OMP.op o s1 (.block b)) >>= _ = _
      rw [show OMP.op o s1 (.block b) = .ok s' from e']
      exact r1
  exact hall [] bs rfl s0 h1.2.2 i1.pendKeys i2 (by rw [i6, h0]; simp) i4 h1.2.1 hbd (by rw [h1.1]; simp)
    (by rw [h1.1]; intro h hm; exact .inl (List.mem_singleton.mp hm)) (by unfold OMP.updates; rw [i5]; rfl)

/-- **C101**, a chain that arrives in order, on top of an unknown block: all of it is sent. -/
theorem C101_chain_partial {cfg : Config} {p : Hash} {bs : List PB} {s0 : OMP} (h0 : cfg.lastHash = Hash.zero)
    (hf : ∀ b ∈ bs, ¬ Forbidden cfg.whitelist b) (hz : ∀ b ∈ bs, b.hash ≠ Hash.zero) (hd : (hashes bs).Nodup) (hl : Linked p bs)
    (hn : newOMP cfg = .ok s0) : ∃ s, s0.run o (bs.map OOp.block) = .ok s ∧ s.updates = bs.map (fun b => ([b], [])) := by
  refine C101_starts_partial h0 hf hz hd ?_ hn
  intro l1 b l2 e
  rw [e] at hl
  have hb := (linked_append.mp hl).2.1
  cases l1 with
  | nil =>
    by_cases hp : b.parentHash = Hash.zero
    · left; rw [hp, h0]; rfl
    · exact .inr ⟨.inl (by simp), hp, by simp [hashes]⟩
  | cons a l1 =>
    left
    rw [hb]
    exact endOf_ne (by simp) _ _

/-- A consumer without a last block. -/
def exEmptyCfg (t : Int) : Config := { exOCfg with lastHash := Hash.zero, lastWeight := 0, reorgThreshold := t }

/-- Blocks none of which is the parent of another. -/
def exStrangers (n : Nat) : List PB := (List.range n).map (fun i => ob (2 * i + 2) (2 * i + 1) (10 + 7 * i) (10 + i))

/-- **C101** refuted for small reorg thresholds: with a threshold of four the cache never holds ten hashes, the early phase never
ends, and a tenth update that connects to nothing is sent. -/
theorem C101_refuted : ¬ ∀ (o : MapOrder) (W : World) (cfg : Config) (ops : List OOp) (s0 s : OMP), FromWorld W (blocksOf ops) →
    0 < cfg.reorgThreshold → newOMP cfg = .ok s0 → s0.run o ops = .ok s → detached cfg.lastHash s.log ≤ 9 := by
  intro h
  obtain ⟨s, h1, h2⟩ := ex_ok (r := (omp0 (exEmptyCfg 4)).run .plain ((exStrangers 12).map OOp.block))
    (fun s => detached Hash.zero s.log == 12) (by decide +kernel)
  have := h .plain (worldOf (exStrangers 12) 9) (exEmptyCfg 4) ((exStrangers 12).map OOp.block) (omp0 (exEmptyCfg 4)) s
    (by rw [blocksOf_map]; decide +kernel) (by decide) (omp0_new _ (by decide)) h1
  have h3 : detached (exEmptyCfg 4).lastHash s.log = 12 := by
    show detached Hash.zero s.log = 12
    simpa using h2
  omega

/-- C101: with a threshold of ten, twelve strangers arrive; nine are sent. -/
example : ∃ s, (omp0 (exEmptyCfg 10)).run .plain ((exStrangers 12).map OOp.block) = .ok s ∧
    (detached Hash.zero s.log == 9 && s.updates.length == 9) = true :=
  ex_ok _ (by decide +kernel)

/-- C101: the strangers meet the hypotheses. -/
example := And.intro (show FromWorld (worldOf (exStrangers 12) 9) (blocksOf ((exStrangers 12).map OOp.block)) by
  rw [blocksOf_map]; decide +kernel) (omp0_new (exEmptyCfg 10) (by decide))

/-- C101: nine strangers, then a chain on the last of them. -/
def exFree : List PB := exStrangers 9 ++ [ob 30 18 80 30, ob 31 30 81 31]

theorem startsFreely_of {cfg : Config} {bs : List PB} (h : ∀ i (hi : i < bs.length), bs[i].parentHash = endOf cfg.lastHash (bs.take i) ∨
    ((i ≤ 8 ∨ cfg.reorgThreshold < 5) ∧ bs[i].parentHash ≠ Hash.zero ∧ bs[i].parentHash ∉ hashes (bs.take i))) : StartsFreely cfg bs := by
  intro l1 b l2 e
  subst e
  have := h l1.length (by simp)
  simpa using this

/-- C101: they meet the hypotheses of going ahead. -/
example : StartsFreely (exEmptyCfg 10) exFree ∧ (∀ b ∈ exFree, b.hash ≠ Hash.zero) ∧ (hashes exFree).Nodup ∧ exFree.length = 11 :=
  ⟨startsFreely_of (by decide +kernel), by decide +kernel⟩

/-- C101: no block of theirs is forbidden. -/
example : ∀ b ∈ exFree, ¬ Forbidden (exEmptyCfg 10).whitelist b := by
  rintro b - ⟨h, hh, _⟩
  simp [exEmptyCfg, exOCfg, exCfg, GMap.empty, GMap.get?, GMap.look] at hh

end Verif
