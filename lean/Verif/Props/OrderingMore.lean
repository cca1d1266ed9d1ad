import Verif.Proofs.OrderingLine
import Verif.Proofs.OrderingBound
import Verif.Proofs.OrderingLong
import Verif.Props.Ordering
/-!
# C35, C37–C42: what becomes of delivered blocks

`FitsWindow cfg bs`: the last processed block and the delivered blocks together are at most `2 * ReorgThreshold` many, so that
nothing is ever evicted.
-/
namespace Verif
open Spec

variable {o : MapOrder}

/-! ## C35: no panic -/

/-- **C35**, the part that holds: blocks heavier than their parents and fitting the window never make the ordering layer
fault. Missing: equal weights and evictions (both refuted below), reorg notifications, and an empty `LastHash`. -/
theorem C35_partial {W : World} {cfg : Config} {bs : List PB} {s0 : OMP} (h0 : cfg.lastHash ≠ Hash.zero)
    (hw : cfg.lastWeight = W.weight cfg.lastHash) (hW : FromWorld W bs) (hh : ∀ b ∈ bs, W.Heavier b)
    (hN : ∀ b ∈ bs, W.Numbered b) (hf : FitsWindow cfg bs) (hn : newOMP cfg = .ok s0) :
    ∃ s, s0.run o (bs.map OOp.block) = .ok s := by
  obtain ⟨U, hU, hl, hb⟩ := hf
  have hR : Regular W U (· ∈ bs) := ⟨hW.hashed, fun b h => (hW b h).1, hN, hh, hb⟩
  obtain ⟨s, h, _⟩ := (run_safe (o := o) hR (fun b h => h) (newOMP_safe hn h0 hw hU hl)).total
  exact ⟨s, h⟩

/-- The six deliveries of the tree fit the window. -/
theorem exTree_fits : FitsWindow exOCfg exTree :=
  ⟨[exHash 1, exHash 2, exHash 3, exHash 4, exHash 5], by decide, by decide +kernel, by decide +kernel⟩

/-- C35: the tree with its forks and duplicates meets the hypotheses. -/
example := And.intro ex_tree_ok exTree_fits

/-- Three blocks of weight zero, the grandchild before the child. -/
def exZero : List PB := [ob 3 2 12 0, ob 2 1 11 0]

/-- Block 1, of weight zero, was the last one processed. -/
def exZeroCfg : Config := { exOCfg with lastWeight := 0 }

/-- **C35** refuted: a block of weight zero waiting for its parent makes `prepareEmit` look up the zero hash and panic. -/
theorem C35_refuted_zero : ¬ ∀ (o : MapOrder) (W : World) (cfg : Config) (bs : List PB) (s0 : OMP), cfg.lastHash ≠ Hash.zero →
    cfg.lastWeight = W.weight cfg.lastHash → FromWorld W bs → (∀ b ∈ bs, W.Numbered b) → FitsWindow cfg bs → newOMP cfg = .ok s0 →
    s0.run o (bs.map OOp.block) ≠ .error .panic := by
  intro h
  refine h .plain (worldOf exZero 10) exZeroCfg exZero (omp0 exZeroCfg) (by decide) (by decide +kernel) (by decide +kernel)
    (by decide +kernel) ⟨[exHash 1, exHash 2, exHash 3], by decide, by decide +kernel, by decide +kernel⟩ (omp0_new _ (by decide)) ?_
  exact ex_err (by decide +kernel)

/-- Blocks heavier than their parents, some delivered twice. -/
def exEvict : List PB :=
  [ob 2 1 1 6, ob 4 1 1 6, ob 1 0 0 5, ob 7 6 3 10, ob 3 1 1 7, ob 6 3 2 8, ob 2 1 1 6, ob 1 0 0 5, ob 3 1 1 7]

/-- A reorg threshold of one. -/
def exOneCfg : Config := { exOCfg with reorgThreshold := 1 }

/-- **C35** refuted for blocks heavier than their parents: with more blocks than the window remembers, an evicted block can be
left waiting and the emit loop panics. -/
theorem C35_refuted_evicted : ¬ ∀ (o : MapOrder) (W : World) (cfg : Config) (bs : List PB) (s0 : OMP), cfg.lastHash ≠ Hash.zero →
    cfg.lastWeight = W.weight cfg.lastHash → FromWorld W bs → (∀ b ∈ bs, W.Heavier b) → (∀ b ∈ bs, W.Numbered b) →
    newOMP cfg = .ok s0 → s0.run o (bs.map OOp.block) ≠ .error .panic := by
  intro h
  refine h .plain (worldOf exEvict (-1)) exOneCfg exEvict (omp0 exOneCfg) (by decide) (by decide +kernel) (by decide +kernel)
    (by decide +kernel) (by decide +kernel) (omp0_new _ (by decide)) ?_
  exact ex_err (by decide +kernel)

/-! ## C37: parents first -/

theorem parents_first_run {W : World} {cfg : Config} {bs : List PB} {s0 : OMP} {U : List Hash} (h0 : cfg.lastHash ≠ Hash.zero)
    (hw : cfg.lastWeight = W.weight cfg.lastHash) (hW : FromWorld W bs) (hh : ∀ b ∈ bs, W.Heavier b)
    (hN : ∀ b ∈ bs, W.Numbered b) (hU : (U.length : Int) ≤ 2 * cfg.reorgThreshold) (hl : cfg.lastHash ∈ U) (hb : ∀ b ∈ bs, b.hash ∈ U)
    (hwl : ∀ b ∈ bs, ¬ Forbidden cfg.whitelist b) (hpf : ParentsFirst cfg.lastHash bs) (hn : newOMP cfg = .ok s0) :
    ∃ s, s0.run o (bs.map OOp.block) = .ok s ∧ PF W U cfg.whitelist cfg.lastHash bs s := by
  have hR : Regular W U (· ∈ bs) := ⟨hW.hashed, fun b h => (hW b h).1, hN, hh, hb⟩
  obtain ⟨i1, i2, i3, i4, i5, i6, _⟩ := newOMP_inv (D := (· ∈ ([] : List PB))) hn
  obtain ⟨r1, r2, _, _⟩ := newOMP_room hn hU hl
  have hP : PF W U cfg.whitelist cfg.lastHash [] s0 := by
    refine ⟨i1, r1, by simp [i6, h0], i4, ?_, by simp, by simp, by simp [r2], by simp [r2], by rw [i3, i2, hw], .inl ⟨rfl, i2⟩, by simp [i5]⟩
    intro h
    unfold newOMP at hn
    split at hn
    · simp at hn
    · simp only [Except.ok.injEq] at hn
      subst hn
      rfl
  obtain ⟨s, hr, hs⟩ := (pf_run (o := o) (pre := []) (by simpa using hR) ⟨by simp, by simp, .inl rfl⟩ hP hwl
    (by simpa [ParentsFirst] using hpf)).total
  exact ⟨s, hr, by simpa using hs⟩

/-- **C37**: blocks delivered parents first, beginning with the last processed block, fitting the window: the ordering layer
does not fault, and its head is the first-received block of maximal weight. (The list is any list, so this holds after every
delivery.) -/
theorem C37_heaviest {W : World} {cfg : Config} {bs : List PB} {s0 : OMP} (h0 : cfg.lastHash ≠ Hash.zero)
    (hw : cfg.lastWeight = W.weight cfg.lastHash) (hW : FromWorld W bs) (hh : ∀ b ∈ bs, W.Heavier b)
    (hN : ∀ b ∈ bs, W.Numbered b) (hf : FitsWindow cfg bs) (hwl : ∀ b ∈ bs, ¬ Forbidden cfg.whitelist b)
    (hpf : ParentsFirst cfg.lastHash bs) (hne : bs ≠ []) (hn : newOMP cfg = .ok s0) :
    ∃ s, s0.run o (bs.map OOp.block) = .ok s ∧ FirstHeaviest bs s.lastHash := by
  obtain ⟨U, hU, hl, hb⟩ := hf
  obtain ⟨s, hr, hs⟩ := parents_first_run (o := o) h0 hw hW hh hN hU hl hb hwl hpf hn
  refine ⟨s, hr, ?_⟩
  rcases hs.head with h | h
  · exact (hne h.1).elim
  · exact h

/-- The tree of the other examples, parents first. -/
def exFirst : List PB := [ob 1 0 10 5, ob 2 1 11 10, ob 3 2 12 20, ob 2 1 11 10, ob 4 1 11 11, ob 5 4 12 25, ob 6 5 13 25]

/-- The prefixes of a list and what follows. -/
def splits {α : Type} : List α → List (List α × α × List α)
  | [] => []
  | a :: l => ([], a, l) :: (splits l).map (fun x => (a :: x.1, x.2))

theorem mem_splits {α : Type} {l1 l2 : List α} {a : α} : (l1, a, l2) ∈ splits (l1 ++ a :: l2) := by
  induction l1 with
  | nil => simp [splits]
  | cons b l1 ih => simp [splits, ih]

theorem parentsFirst_of {root : Hash} {bs : List PB}
    (h : ∀ x ∈ splits bs, x.2.1.hash = root ∨ ∃ a ∈ x.1, a.hash = x.2.1.parentHash) : ParentsFirst root bs := by
  intro l1 b l2 e
  subst e
  exact h _ mem_splits

instance (wl : GMap Nat Hash) (b : PB) : Decidable (Forbidden wl b) :=
  match h : wl.get? (heightKey b.number) with
  | none => .isFalse (by rintro ⟨x, hx, _⟩; rw [h] at hx; simp at hx)
  | some x => decidable_of_iff (x ≠ b.hash) ⟨fun hx => ⟨x, h, hx⟩, by rintro ⟨y, hy, hne⟩; rw [h] at hy; simp at hy; rw [hy]; exact hne⟩

/-- C37: a tree with a reorg; block 5 is heaviest. -/
example : FromWorld (worldOf exFirst 9) (exFirst.take 6) ∧ (∀ b ∈ exFirst.take 6, (worldOf exFirst 9).Heavier b) ∧
    (∀ b ∈ exFirst.take 6, (worldOf exFirst 9).Numbered b) ∧ FitsWindow exWCfg (exFirst.take 1 ++ (exFirst.drop 4).take 2) ∧
    (∀ b ∈ exFirst.take 1 ++ (exFirst.drop 4).take 2, ¬ Forbidden exWCfg.whitelist b) ∧
    FitsWindow exOCfg (exFirst.take 6) ∧ ParentsFirst exOCfg.lastHash (exFirst.take 6) ∧
    (∀ b ∈ exFirst.take 6, ¬ Forbidden exOCfg.whitelist b) ∧ newOMP exOCfg = .ok (omp0 exOCfg) ∧
    ∃ s, (omp0 exOCfg).run .plain ((exFirst.take 6).map OOp.block) = .ok s ∧ (s.lastHash == exHash 5) = true :=
  ⟨by decide +kernel, by decide +kernel, by decide +kernel,
    ⟨[exHash 1, exHash 4, exHash 5], by decide, by decide +kernel, by decide +kernel⟩, by decide +kernel,
    ⟨[exHash 1, exHash 2, exHash 3, exHash 4, exHash 5], by decide, by decide +kernel, by decide +kernel⟩,
    parentsFirst_of (by decide +kernel), by decide +kernel, omp0_new _ (by decide), ex_ok _ (by decide +kernel)⟩

/-! ## C38: one chain -/

theorem fits_of_chain {cfg : Config} {chain ds : List PB} (hlen : (chain.length + 1 : Int) ≤ 2 * cfg.reorgThreshold)
    (hD : ∀ b ∈ ds, b.hash ∈ hashes chain) : FitsWindow cfg ds :=
  ⟨cfg.lastHash :: hashes chain, by simp only [List.length_cons, hashes, List.length_map]; omega, by simp, fun b hb => by simp [hD b hb]⟩

theorem chain_regular {W : World} {root : Hash} {chain ds : List PB} (hc : ChainOn W root chain) (hW : FromWorld W ds)
    (hD : ∀ b ∈ ds, b.hash ∈ hashes chain) {U : List Hash} (hb : ∀ b ∈ ds, b.hash ∈ U) : Regular W U (· ∈ ds) := by
  refine ⟨hW.hashed, fun b h => (hW b h).1, ?_, ?_, hb⟩
  · intro b h
    obtain ⟨y, hy, e⟩ := List.mem_map.mp (hD b h)
    have := hc.numbered y hy
    unfold World.Numbered at *
    rwa [(hc.has y hy).parent, e, ← (hW b h).1.parent] at this
  · intro b h
    obtain ⟨y, hy, e⟩ := List.mem_map.mp (hD b h)
    have := hc.heavier y hy
    unfold World.Heavier at *
    rwa [(hc.has y hy).parent, e, ← (hW b h).1.parent] at this

/-- **C38**: the blocks `ds` delivered are copies of blocks of a chain, of any length, on top of the last processed block, in any
order, with any repetition and any omission. No fault; nothing is removed; the blocks added are, in order and once each, an initial
part of the chain; the block after that part has not been delivered. Blocks are forgotten on the way (once more than
`2 * ReorgThreshold` are remembered): each eviction request names the number of a block already added. -/
theorem C38_chain {W : World} {cfg : Config} {chain ds : List PB} {s0 : OMP} (h0 : cfg.lastHash ≠ Hash.zero)
    (hw : cfg.lastWeight = W.weight cfg.lastHash) (hc : ChainOn W cfg.lastHash chain) (hW : FromWorld W ds)
    (hD : ∀ b ∈ ds, b.hash ∈ hashes chain) (hwl : ∀ b ∈ ds, ¬ Forbidden cfg.whitelist b) (hn : newOMP cfg = .ok s0) :
    ∃ s em rest, s0.run o (ds.map OOp.block) = .ok s ∧ chain = em ++ rest ∧ addedHashes s.log = hashes em ∧
      (∀ x ∈ s.log, (∃ a, x = .update a []) ∨ ∃ k ∈ hashes em, x = .evictOlder (W.number k)) ∧ s.lastHash = endOf cfg.lastHash em ∧
      ∀ b rest', rest = b :: rest' → b.hash ∉ hashes ds := by
  have hR : Regular W (hashes chain) (· ∈ ds) := chain_regular hc hW hD hD
  obtain ⟨i1, i2, i3, i4, i5, i6, i7, i8⟩ := newOMP_inv (D := (· ∈ ([] : List PB))) hn
  obtain ⟨_, r2, r3, r4⟩ := newOMP_room (U := [cfg.lastHash]) hn (by simp only [List.length_singleton]; omega) (by simp)
  have hbl : (∀ h, s0.blacklist.contains h = false) ∧ s0.reorgThreshold = cfg.reorgThreshold := by
    unfold newOMP at hn
    split at hn
    · simp at hn
    · simp only [Except.ok.injEq] at hn
      subst hn
      exact ⟨fun _ => rfl, rfl⟩
  have hcap : 0 < (2 * cfg.reorgThreshold).toNat := by omega
  have hP : LongLined W cfg.whitelist cfg.lastHash (2 * cfg.reorgThreshold).toNat chain [] [] chain s0 := by
    refine ⟨rfl, ⟨i1, i7, by rw [hbl.2]; omega, ?_, by simp [i6, h0], i4, hbl.1, i2, by rw [i3, i2, hw], by simp, by simp [hashes],
      by simp [hashes], by simp⟩, ?_, by simp [i5], by simp [i5, addedHashes, hashes]⟩
    · rw [r2]
      unfold newest hashes
      simp only [List.map_nil, List.reverse_singleton]
      rw [List.take_of_length_le (by simp only [List.length_singleton]; omega)]
    · rw [r4]; rfl
  obtain ⟨s, hr, em, rest, hs⟩ := (long_run (o := o) hcap hc (pre := []) (by simpa using hR) (by simpa using hD) hP hwl).total
  refine ⟨s, em, rest, hr, hs.split, hs.added, hs.noRemoved, hs.line.last, ?_⟩
  rintro b rest' rfl hbd
  obtain ⟨d, hd, e⟩ := List.mem_map.mp hbd
  have hsp := hs.split
  have hlk := hc.linked
  rw [hsp] at hlk
  obtain ⟨_, hlk⟩ := linked_append.mp hlk
  have hbc : b ∈ chain := by rw [hsp]; simp
  have hpar : d.parentHash = endOf cfg.lastHash em := by
    rw [(hW d hd).1.parent, e, ← (hc.has b hbc).parent]; exact hlk.1
  have hnotin : d.hash ∉ hashes em := by
    rw [e]
    intro hm
    have hnd := (linked_nodup (W := W) hc.linked hc.numbered).1
    rw [hsp, hashes_append, List.nodup_cons, List.nodup_append] at hnd
    exact hnd.2.2.2 _ hm b.hash (by simp [hashes]) rfl
  obtain ⟨q, hq, _⟩ := hs.line.wait d (by simpa using hd) hnotin
  rw [hpar, ← hs.line.last, hs.tip] at hq
  simp at hq

/-- **C38** for a chain that fits the window: nothing is forgotten on the way either, so the log consists of updates only. -/
theorem C38_window {W : World} {cfg : Config} {chain ds : List PB} {s0 : OMP} (h0 : cfg.lastHash ≠ Hash.zero)
    (hw : cfg.lastWeight = W.weight cfg.lastHash) (hc : ChainOn W cfg.lastHash chain) (hW : FromWorld W ds)
    (hD : ∀ b ∈ ds, b.hash ∈ hashes chain) (hwl : ∀ b ∈ ds, ¬ Forbidden cfg.whitelist b)
    (hlen : (chain.length + 1 : Int) ≤ 2 * cfg.reorgThreshold) (hn : newOMP cfg = .ok s0) :
    ∃ s em rest, s0.run o (ds.map OOp.block) = .ok s ∧ chain = em ++ rest ∧ addedHashes s.log = hashes em ∧
      (∀ x ∈ s.log, ∃ a, x = .update a []) ∧ s.lastHash = endOf cfg.lastHash em ∧
      ∀ b rest', rest = b :: rest' → b.hash ∉ hashes ds := by
  obtain ⟨U, hU, hl, hb⟩ := fits_of_chain hlen hD
  have hR : Regular W U (· ∈ ds) := chain_regular hc hW hD hb
  obtain ⟨i1, i2, i3, i4, i5, i6, _⟩ := newOMP_inv (D := (· ∈ ([] : List PB))) hn
  obtain ⟨r1, r2, r3, r4⟩ := newOMP_room hn hU hl
  have hP : Lined W U cfg.whitelist cfg.lastHash chain [] [] chain s0 := by
    refine ⟨rfl, ⟨i1, r1, by simp [i6, h0], i4, ?_, i2, by rw [i3, i2, hw], by simp [r2, hashes], by simp⟩, by simp, ?_,
      by simp [i5], by simp [i5, addedHashes, hashes]⟩
    · intro h
      unfold newOMP at hn
      split at hn
      · simp at hn
      · simp only [Except.ok.injEq] at hn
        subst hn
        rfl
    · rw [r4]; rfl
  obtain ⟨s, hr, em, rest, hs⟩ := (line_run (o := o) hc (pre := []) (by simpa using hR) (by simpa using hD) hP hwl).total
  refine ⟨s, em, rest, hr, hs.split, hs.added, hs.noRemoved, hs.line.last, ?_⟩
  rintro b rest' rfl hbd
  obtain ⟨d, hd, e⟩ := List.mem_map.mp hbd
  have hsp := hs.split
  have hlk := hc.linked
  rw [hsp] at hlk
  obtain ⟨_, hlk⟩ := linked_append.mp hlk
  have hbc : b ∈ chain := by rw [hsp]; simp
  have hpar : d.parentHash = endOf cfg.lastHash em := by
    rw [(hW d hd).1.parent, e, ← (hc.has b hbc).parent]; exact hlk.1
  have hnotin : d.hash ∉ hashes em := by
    rw [e]
    intro hm
    have hnd := (linked_nodup (W := W) hc.linked hc.numbered).1
    rw [hsp, hashes_append, List.nodup_cons, List.nodup_append] at hnd
    exact hnd.2.2.2 _ hm b.hash (by simp [hashes]) rfl
  obtain ⟨q, hq, _⟩ := hs.wait d (by simpa using hd) hnotin
  rw [hpar, ← hs.line.last, hs.tip] at hq
  simp at hq

/-- **C38**, complete delivery: once every block of the chain has been delivered, all of it has been added. -/
theorem C38_complete {W : World} {cfg : Config} {chain ds : List PB} {s0 : OMP} (h0 : cfg.lastHash ≠ Hash.zero)
    (hw : cfg.lastWeight = W.weight cfg.lastHash) (hc : ChainOn W cfg.lastHash chain) (hW : FromWorld W ds)
    (hD : ∀ h, h ∈ hashes ds ↔ h ∈ hashes chain) (hwl : ∀ b ∈ ds, ¬ Forbidden cfg.whitelist b)
    (hn : newOMP cfg = .ok s0) :
    ∃ s, s0.run o (ds.map OOp.block) = .ok s ∧ addedHashes s.log = hashes chain ∧
      (∀ x ∈ s.log, (∃ a, x = .update a []) ∨ ∃ k ∈ hashes chain, x = .evictOlder (W.number k)) ∧
      s.lastHash = endOf cfg.lastHash chain := by
  obtain ⟨s, em, rest, h1, h2, h3, h4, h5, h6⟩ := C38_chain (o := o) h0 hw hc hW (fun b hb => (hD _).mp (mem_hashes hb)) hwl hn
  cases rest with
  | nil =>
    rw [List.append_nil] at h2
    subst h2
    exact ⟨s, h1, h3, h4, h5⟩
  | cons b rest =>
    refine (h6 b rest rfl ((hD _).mpr ?_)).elim
    rw [h2, hashes_append]
    simp [hashes]

/-- A chain of five blocks on block 1. -/
def exLine : List PB := [ob 2 1 11 6, ob 3 2 12 7, ob 4 3 13 9, ob 5 4 14 10, ob 6 5 15 12]

/-- The chain, shuffled, with repetitions. -/
def exShuffled : List PB := [ob 6 5 15 12, ob 3 2 12 7, ob 2 1 11 6, ob 3 2 12 7, ob 5 4 14 10, ob 2 1 11 6, ob 4 3 13 9, ob 6 5 15 12]

/-- The world of the chain, block 1 having weight 5. -/
def exLineW : World := worldOf (ob 1 0 10 5 :: exLine) 9

/-- C38: the shuffled chain meets the hypotheses; without block 4 only the first two blocks come out. -/
example : exOCfg.lastWeight = exLineW.weight exOCfg.lastHash ∧ ChainOn exLineW exOCfg.lastHash exLine ∧ FromWorld exLineW exShuffled ∧
    (∀ b ∈ exShuffled, b.hash ∈ hashes exLine) ∧ (∀ b ∈ exLine, b.hash ∈ hashes exShuffled) ∧
    (∀ b ∈ exShuffled, ¬ Forbidden exOCfg.whitelist b) ∧ (exLine.length + 1 : Int) ≤ 2 * exOCfg.reorgThreshold ∧
    (∃ s, (omp0 exOCfg).run .plain (exShuffled.map OOp.block) = .ok s ∧
      (sent s == [([exHash 2, exHash 3], []), ([exHash 4, exHash 5, exHash 6], [])]) = true) ∧
    ∃ s, (omp0 exOCfg).run .plain ((exShuffled.take 6).map OOp.block) = .ok s ∧ (sent s == [([exHash 2, exHash 3], [])]) = true :=
  ⟨by decide +kernel, ⟨by unfold exLine Linked; simp [Linked, ob]; decide, by decide +kernel, by decide +kernel, by decide +kernel⟩,
    by decide +kernel, by decide +kernel, by decide +kernel, by decide +kernel, by decide, ex_ok _ (by decide +kernel),
    ex_ok _ (by decide +kernel)⟩

/-- C38: with `ReorgThreshold = 1` two blocks are remembered; the same shuffled chain comes out, and three requests are sent. -/
example : exOneCfg.lastWeight = exLineW.weight exOneCfg.lastHash ∧ 2 * exOneCfg.reorgThreshold < exLine.length ∧
    newOMP exOneCfg = .ok (omp0 exOneCfg) ∧ (∀ b ∈ exShuffled, ¬ Forbidden exOneCfg.whitelist b) ∧
    ∃ s, (omp0 exOneCfg).run .plain (exShuffled.map OOp.block) = .ok s ∧
      (addedHashes s.log == hashes exLine && s.log.filterMap (fun x => match x with | .evictOlder n => some n | _ => none) == [11, 12, 13]) = true :=
  ⟨by decide +kernel, by decide, omp0_new _ (by decide), by decide +kernel, ex_ok _ (by decide +kernel)⟩

/-! ## C39: forks in any order -/

/-- Nine blocks: 2-3 on block 1; 6 on block 1 with the children 4 and 5; 7 on 4; 8-9 on 5. -/
def exForks : List PB :=
  [ob 1 0 0 5, ob 2 1 1 6, ob 3 2 2 7, ob 4 6 2 7, ob 5 6 2 7, ob 7 4 3 8, ob 6 1 1 6, ob 8 5 3 8, ob 9 8 4 9]

/-- **C39** refuted: all blocks of a tree are delivered and the head is not a heaviest one. Block 5 waits for block 6; when block 6
arrives only the chain through block 4 is adopted and block 5 is never marked as connected, so blocks 8 and 9 stay waiting. -/
theorem C39_refuted : ¬ ∀ (o : MapOrder) (W : World) (cfg : Config) (bs : List PB) (s0 s : OMP), cfg.lastHash ≠ Hash.zero →
    cfg.lastWeight = W.weight cfg.lastHash → FromWorld W bs → (∀ b ∈ bs, W.Heavier b) → (∀ b ∈ bs, W.Numbered b) → FitsWindow cfg bs →
    (∀ b ∈ bs, ¬ Forbidden cfg.whitelist b) → TreeOf cfg.lastHash bs → newOMP cfg = .ok s0 →
    s0.run o (bs.map OOp.block) = .ok s → Heaviest bs s.lastHash := by
  intro h
  obtain ⟨s, hr, hs⟩ := ex_ok (r := (omp0 exOCfg).run .plain (exForks.map OOp.block)) (fun s => s.lastHash == exHash 7) (by decide +kernel)
  have := h .plain (worldOf exForks (-1)) exOCfg exForks (omp0 exOCfg) s (by decide) (by decide +kernel) (by decide +kernel)
    (by decide +kernel) (by decide +kernel)
    ⟨[exHash 1, exHash 2, exHash 3, exHash 4, exHash 5, exHash 6, exHash 7, exHash 8, exHash 9], by decide, by decide +kernel, by decide +kernel⟩
    (by decide +kernel) ⟨by decide +kernel, by decide +kernel⟩ (omp0_new _ (by decide)) hr
  obtain ⟨b, hb, e, hmax⟩ := this
  rw [beq_iff_eq] at hs
  rw [hs] at e
  have h1 : ∀ b ∈ exForks, b.hash = exHash 7 → b.weight = 8 := by decide +kernel
  have h2 := hmax (ob 9 8 4 9) (by simp [exForks])
  rw [h1 b hb e] at h2
  exact absurd h2 (by decide)

/-- **C39**, the part that holds: parents-first orders (by C37) end on a heaviest block. Missing: all other orders. Some are
refuted above; a single branch is C38; orders in which the gaps close well are `C39_gaps_partial`. -/
theorem C39_partial {W : World} {cfg : Config} {bs : List PB} {s0 : OMP} (h0 : cfg.lastHash ≠ Hash.zero)
    (hw : cfg.lastWeight = W.weight cfg.lastHash) (hW : FromWorld W bs) (hh : ∀ b ∈ bs, W.Heavier b)
    (hN : ∀ b ∈ bs, W.Numbered b) (hf : FitsWindow cfg bs) (hwl : ∀ b ∈ bs, ¬ Forbidden cfg.whitelist b)
    (hpf : ParentsFirst cfg.lastHash bs) (hne : bs ≠ []) (hn : newOMP cfg = .ok s0) :
    ∃ s, s0.run o (bs.map OOp.block) = .ok s ∧ Heaviest bs s.lastHash := by
  obtain ⟨s, h1, l1, b, l2, rfl, h2, h3, _⟩ := C37_heaviest (o := o) h0 hw hW hh hN hf hwl hpf hne hn
  exact ⟨s, h1, b, by simp, h2, h3⟩

/-! ## C40: repeated blocks -/

/-- **C40**: in any state whatsoever, handling a block whose hash is remembered sends nothing and changes neither head, waiting
blocks nor remembered hashes. -/
theorem C40_repeat {s : OMP} {pb : PB} (h : s.finished.contains pb.hash = true) :
    ∃ s', s.handle o pb = .ok s' ∧ s'.log = s.log ∧ s'.lastHash = s.lastHash ∧ s'.lastWeight = s.lastWeight ∧
      s'.queued = s.queued ∧ s'.finished = s.finished := by
  unfold OMP.handle OMP.handleAux
  split
  · exact ⟨_, rfl, rfl, rfl, rfl, rfl, rfl⟩
  · unfold OMP.accept
    rw [if_pos (by simp [h])]
    exact ⟨_, rfl, rfl, rfl, rfl, rfl, rfl⟩

/-- C40: block 2 after the tree has been handled. -/
example : ∃ s, (omp0 exOCfg).run .plain (exTree.map OOp.block) = .ok s ∧
    (s.finished.contains (exHash 2) && s.lastHash == exHash 5 && !s.queued.entries.isEmpty) = true := ex_ok _ (by decide +kernel)

/-! ## C41: bounded memory of hashes -/

/-- **C41**: the ordering layer remembers at most `2 * ReorgThreshold` hashes. -/
theorem C41_ordering {cfg : Config} {ops : List OOp} {s0 s : OMP} (hn : newOMP cfg = .ok s0) (hr : s0.run o ops = .ok s) :
    (s.finished.len : Int) ≤ 2 * cfg.reorgThreshold := by
  have hp := (newOMP_inv (D := fun _ => True) hn).2.2.2.2.2.2.2
  have h1 := ((run_bound (o := o) s0 ops (newOMP_bound hn)).ok hr).2.1
  unfold LRU.len
  omega

/-- **C41**: the assembler remembers at most `2 * ReorgThreshold` emitted hashes. -/
theorem C41_assembler {C : Codec} {env : Env} {cfg : Config} {ms : List RMsg} {mp mp' : MP} (hn : newMP cfg = .ok mp)
    (hr : mp.run C env ms = .ok mp') : (mp'.completed.len : Int) ≤ 2 * cfg.reorgThreshold := by
  have hb := Base.newMP hn
  have h0 : MBound cfg.reorgThreshold mp ∧ 0 < 2 * cfg.reorgThreshold := by
    unfold newMP at hn
    split at hn
    · simp at hn
    · rename_i hc
      simp only [Except.ok.injEq] at hn
      subst hn
      exact ⟨⟨rfl, rfl, Nat.zero_le _⟩, by omega⟩
  have h1 := ((mbound_parts C env cfg.reorgThreshold).toParts.run (fun _ _ => trivial) ⟨hb, h0.1⟩ hr).2.2.2
  have h2 := h0.2
  unfold LRU.len
  omega

/-- C41: with a threshold of one, two of the seven hashes are remembered. -/
example : newOMP exOneCfg = .ok (omp0 exOneCfg) ∧
    ∃ s, (omp0 exOneCfg).run .plain ((exEvict.take 8).map OOp.block) = .ok s ∧ (s.finished.len == 2) = true :=
  ⟨omp0_new _ (by decide), ex_ok _ (by decide +kernel)⟩

/-! ## C42: forks at the start -/

/-- Two blocks on block 1, the second heavier. -/
def exStart : List PB := [ob 2 1 11 10, ob 3 1 11 11]

/-- **C42** refuted: block 1 itself is not delivered again, so the common ancestor is not found and block 3, although heavier and a child
of the last processed block, is not adopted. -/
theorem C42_refuted : ¬ ∀ (o : MapOrder) (W : World) (cfg : Config) (bs : List PB) (s0 s : OMP), cfg.lastHash ≠ Hash.zero →
    cfg.lastWeight = W.weight cfg.lastHash → FromWorld W bs → (∀ b ∈ bs, W.Heavier b) → (∀ b ∈ bs, W.Numbered b) → FitsWindow cfg bs →
    (∀ b ∈ bs, ¬ Forbidden cfg.whitelist b) → ParentsKnown cfg.lastHash bs → bs ≠ [] → newOMP cfg = .ok s0 →
    s0.run o (bs.map OOp.block) = .ok s → Heaviest bs s.lastHash := by
  intro h
  obtain ⟨s, hr, hs⟩ := ex_ok (r := (omp0 exOCfg).run .plain (exStart.map OOp.block)) (fun s => s.lastHash == exHash 2) (by decide +kernel)
  have := h .plain (worldOf (ob 1 0 10 5 :: exStart) 9) exOCfg exStart (omp0 exOCfg) s (by decide) (by decide +kernel) (by decide +kernel)
    (by decide +kernel) (by decide +kernel) ⟨[exHash 1, exHash 2, exHash 3], by decide, by decide +kernel, by decide +kernel⟩
    (by decide +kernel) ?_ (by simp [exStart]) (omp0_new _ (by decide)) hr
  · obtain ⟨b, hb, e, hmax⟩ := this
    rw [beq_iff_eq] at hs
    rw [hs] at e
    have h1 : ∀ b ∈ exStart, b.hash = exHash 2 → b.weight = 10 := by decide +kernel
    have h2 := hmax (ob 3 1 11 11) (by simp [exStart])
    rw [h1 b hb e] at h2
    exact absurd h2 (by decide)
  · intro l1 b l2 e
    have h1 : ∀ x ∈ splits exStart, x.2.1.parentHash = exHash 1 ∨ ∃ a ∈ x.1, a.hash = x.2.1.parentHash := by decide +kernel
    have := h1 (l1, b, l2) (by rw [e]; exact mem_splits)
    exact this

/-- **C42**, the part that holds: when the last processed block is delivered again first and parents come before children, the heaviest of
all blocks becomes the head, on whatever fork of the last processed block it is. Missing: starts without that redelivery (refuted
above), and children before parents (C39). -/
theorem C42_partial {W : World} {cfg : Config} {bs : List PB} {s0 : OMP} (h0 : cfg.lastHash ≠ Hash.zero)
    (hw : cfg.lastWeight = W.weight cfg.lastHash) (hW : FromWorld W bs) (hh : ∀ b ∈ bs, W.Heavier b)
    (hN : ∀ b ∈ bs, W.Numbered b) (hf : FitsWindow cfg bs) (hwl : ∀ b ∈ bs, ¬ Forbidden cfg.whitelist b)
    (hpf : ParentsFirst cfg.lastHash bs) (hn : newOMP cfg = .ok s0) {tip : PB} (ht : tip ∈ bs)
    (hmax : ∀ b ∈ bs, b.hash ≠ tip.hash → b.weight < tip.weight) :
    ∃ s, s0.run o (bs.map OOp.block) = .ok s ∧ s.lastHash = tip.hash := by
  obtain ⟨s, h1, l1, b, l2, e, h2, h3, _⟩ := C37_heaviest (o := o) h0 hw hW hh hN hf hwl hpf (by rintro rfl; simp at ht) hn
  refine ⟨s, h1, ?_⟩
  rw [← h2]
  refine Classical.byContradiction fun hc => ?_
  have := hmax b (by rw [e]; simp) hc
  have := h3 tip ht
  omega

/-- C42: in the parents-first tree, 4-5 is a fork at block 1 with the heaviest tip. -/
example : ob 5 4 12 25 ∈ exFirst.take 6 ∧
    ∀ b ∈ exFirst.take 6, b.hash ≠ (ob 5 4 12 25).hash → b.weight < (ob 5 4 12 25).weight :=
  ⟨by simp [exFirst], by decide +kernel⟩

end Verif
