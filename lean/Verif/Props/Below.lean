import Verif.Proofs.OrderingBelow
import Verif.Props.OrderingMore
import Verif.Proofs.OrderingResume
/-! # C131: a restarted consumer and forks from below the stored block -/
namespace Verif
open Spec

variable {o : MapOrder} {W : World}

/-- As long as only older blocks have come, nothing happens. -/
theorem below_early {cfg : Config} {root : Hash} {old : List PB} {s0 : OMP} (h0 : cfg.lastHash ≠ Hash.zero)
    (hw : cfg.lastWeight = W.weight cfg.lastHash) (hW : FromWorld W old) (hh : ∀ b ∈ old, W.Heavier b)
    (hN : ∀ b ∈ old, W.Numbered b) (hf : FitsWindow cfg old) (hwl : ∀ b ∈ old, ¬ Forbidden cfg.whitelist b)
    (hpf : ParentsFirst root old) (hlight : ∀ b ∈ old, b.hash = cfg.lastHash ∨ b.weight < cfg.lastWeight) (hn : newOMP cfg = .ok s0) :
    ∃ s, s0.run o (old.map OOp.block) = .ok s ∧ s.log = [] ∧ s.lastHash = cfg.lastHash := by
  obtain ⟨U, hU, hl, hb⟩ := hf
  have hR : Regular W U (· ∈ old) := ⟨hW.hashed, fun b h => (hW b h).1, hN, hh, hb⟩
  obtain ⟨i1, i2, i3, i4, i5, i6, _⟩ := newOMP_inv (D := (· ∈ ([] : List PB))) hn
  obtain ⟨r1, r2, _, _⟩ := newOMP_room hn hU hl
  have hP : PO W U cfg.whitelist cfg.lastHash [] s0 := by
    refine ⟨i1, r1, by simp [i6, h0], i4, ?_, by simp, by simp, by simp [r2], by simp [r2], by rw [i3, hw], i2, i5⟩
    intro h
    unfold newOMP at hn
    split at hn
    · simp at hn
    · simp only [Except.ok.injEq] at hn
      subst hn
      rfl
  obtain ⟨s1, hr1, hs1, _⟩ := (po_run (o := o) (pre := []) (post := old) (by simpa using hR) ⟨by simp, by simp, .inl rfl⟩ hP hwl
    (fun l1 b l2 e => by
      have := hpf l1 b l2 e
      simpa using this) (fun b hb => by rw [← hw]; exact hlight b hb)).total
  exact ⟨s1, hr1, hs1.log, hs1.head⟩

/-- The run, and nothing was asked to be dropped. -/
theorem below_run {cfg : Config} {root : Hash} {old new : List PB} {s0 : OMP} (h0 : cfg.lastHash ≠ Hash.zero)
    (hw : cfg.lastWeight = W.weight cfg.lastHash) (hW : FromWorld W (old ++ new)) (hh : ∀ b ∈ old ++ new, W.Heavier b)
    (hN : ∀ b ∈ old ++ new, W.Numbered b) (hf : FitsWindow cfg (old ++ new)) (hwl : ∀ b ∈ old ++ new, ¬ Forbidden cfg.whitelist b)
    (hpf : ParentsFirst root (old ++ new)) (hst : cfg.lastHash ∈ hashes old) (hlight : ∀ b ∈ old, b.hash = cfg.lastHash ∨ b.weight < cfg.lastWeight)
    (hn : newOMP cfg = .ok s0) :
    ∃ s1 s, s0.run o (old.map OOp.block) = .ok s1 ∧ s1.log = [] ∧ s1.run o (new.map OOp.block) = .ok s ∧ FirstHeaviest (old ++ new) s.lastHash ∧
      ∀ n, OOut.evictOlder n ∉ s.log := by
  obtain ⟨U, hU, hl, hb⟩ := hf
  have hR : Regular W U (· ∈ old ++ new) := ⟨hW.hashed, fun b h => (hW b h).1, hN, hh, hb⟩
  obtain ⟨i1, i2, i3, i4, i5, i6, _⟩ := newOMP_inv (D := (· ∈ ([] : List PB))) hn
  obtain ⟨r1, r2, _, _⟩ := newOMP_room hn hU hl
  have hP : PO W U cfg.whitelist cfg.lastHash [] s0 := by
    refine ⟨i1, r1, by simp [i6, h0], i4, ?_, by simp, by simp, by simp [r2], by simp [r2], by rw [i3, hw], i2, i5⟩
    intro h
    unfold newOMP at hn
    split at hn
    · simp at hn
    · simp only [Except.ok.injEq] at hn
      subst hn
      rfl
  obtain ⟨s1, hr1, hs1, hL1⟩ := (po_run (o := o) (pre := []) (post := old) (hR.mono (fun b hb => by
      simp only [List.nil_append] at hb; simp [hb])) ⟨by simp, by simp, .inl rfl⟩ hP
    (fun b hb => hwl b (by simp [hb])) (fun l1 b l2 e => by
      have := hpf l1 b (l2 ++ new) (by rw [e]; simp)
      simpa using this) (fun b hb => by rw [← hw]; exact hlight b hb)).total
  simp only [List.nil_append] at hs1 hL1
  have hP1 : PF W U cfg.whitelist root old s1 := by
    refine ⟨hs1.inv, hs1.room, hs1.init, hs1.wl, hs1.bl, hs1.pend, hs1.fin, ?_, ?_, by rw [hs1.weight, hs1.head], .inr ?_, by simp [hs1.log]⟩
    · rcases hL1.first with e | e
      · rw [e] at hst; simp [hashes] at hst
      · obtain ⟨x, hx, ex⟩ := List.mem_map.mp e
        exact ex ▸ hs1.fin x hx
    · intro x hx
      rcases hs1.finOnly x hx with e | e
      · exact .inr (e ▸ hst)
      · exact .inr e
    · -- the stored block is the first heaviest of the older ones
      rw [hs1.head]
      have hwt : ∀ b ∈ old, b.hash = cfg.lastHash → b.weight = cfg.lastWeight := by
        intro b hb e
        rw [(hW b (by simp [hb])).1.weight, e, hw]
      obtain ⟨x, hx, ex⟩ := List.mem_map.mp hst
      obtain ⟨l1, b, l2, e, hb1, hb2⟩ : ∃ l1 b l2, old = l1 ++ b :: l2 ∧ b.hash = cfg.lastHash ∧ ∀ x ∈ l1, x.hash ≠ cfg.lastHash := by
        clear hs1 hL1 hr1 hpf hlight hwt hst
        have : ∀ l : List PB, x ∈ l → ∃ l1 b l2, l = l1 ++ b :: l2 ∧ b.hash = cfg.lastHash ∧ ∀ x ∈ l1, x.hash ≠ cfg.lastHash := by
          intro l
          induction l with
          | nil => intro h; simp at h
          | cons y l ih =>
            intro h
            by_cases hy : y.hash = cfg.lastHash
            · exact ⟨[], y, l, rfl, hy, by simp⟩
            · rcases List.mem_cons.mp h with rfl | h
              · exact (hy ex).elim
              · obtain ⟨l1, b, l2, e1, e2, e3⟩ := ih h
                refine ⟨y :: l1, b, l2, by rw [e1]; rfl, e2, ?_⟩
                intro z hz
                rcases List.mem_cons.mp hz with rfl | hz
                · exact hy
                · exact e3 z hz
        exact this old hx
      have hbo : b ∈ old := by rw [e]; simp
      refine ⟨l1, b, l2, e, hb1, ?_, ?_⟩
      · intro y hy
        rw [hwt b hbo hb1]
        rcases hlight y hy with h | h
        · rw [hwt y hy h]; exact Nat.le_refl _
        · omega
      · intro y hy
        have hyo : y ∈ old := by rw [e]; simp [hy]
        rw [hwt b hbo hb1]
        exact (hlight y hyo).resolve_left (hb2 y hy)
  obtain ⟨s, hr, hs⟩ := (pf_run (o := o) (post := new) hR hL1 hP1 (fun b hb => hwl b (by simp [hb])) (fun l1 b l2 e => by
    exact hpf (old ++ l1) b l2 (by rw [e]; simp))).total
  refine ⟨s1, s, hr1, hs1.log, hr, ?_, hs.calm⟩
  rcases hs.head with ⟨h, _⟩ | h
  · rw [List.append_eq_nil_iff] at h
    rw [h.1] at hst; simp [hashes] at hst
  · exact h

/-- **C131**, the part that holds: the consumer is started from a stored block. It gets blocks parents first, from some block `root` at or below the stored
block on, all of which fit the window, and the stored block comes before every heavier block. Then there is no fault, nothing is told to the application until
a heavier block comes, and the head is the first-received block of maximal weight, also when its branch leaves that of the stored block below the stored block.
Missing: other orders (`C131_refuted_before`, `C131_refuted_late`). -/
theorem C131_heaviest_partial {cfg : Config} {root : Hash} {old new : List PB} {s0 : OMP} (h0 : cfg.lastHash ≠ Hash.zero)
    (hw : cfg.lastWeight = W.weight cfg.lastHash) (hW : FromWorld W (old ++ new)) (hh : ∀ b ∈ old ++ new, W.Heavier b)
    (hN : ∀ b ∈ old ++ new, W.Numbered b) (hf : FitsWindow cfg (old ++ new)) (hwl : ∀ b ∈ old ++ new, ¬ Forbidden cfg.whitelist b)
    (hpf : ParentsFirst root (old ++ new)) (hst : cfg.lastHash ∈ hashes old) (hlight : ∀ b ∈ old, b.hash = cfg.lastHash ∨ b.weight < cfg.lastWeight)
    (hn : newOMP cfg = .ok s0) :
    ∃ s1 s, s0.run o (old.map OOp.block) = .ok s1 ∧ s1.log = [] ∧ s1.run o (new.map OOp.block) = .ok s ∧ FirstHeaviest (old ++ new) s.lastHash := by
  obtain ⟨s1, s, h1, h2, h3, h4, _⟩ := below_run (o := o) h0 hw hW hh hN hf hwl hpf hst hlight hn
  exact ⟨s1, s, h1, h2, h3, h4⟩

/-- In the state `s` the block has no connection to what is finished, and is as heavy as the head. -/
structure Spec.Unconnected (s : OMP) (b : PB) : Prop where
  new : b.hash ∉ s.finished.items
  parent : b.parentHash ∉ s.finished.items
  notNext : b.parentHash ≠ s.lastHash
  heavy : s.lastWeight ≤ b.weight
  allowed : s.excludes b = false

theorem unconnected_step {s : OMP} {b : PB} (hi : s.initEmpty = false) (h : Unconnected s b) :
    s.handle o b = .ok (OMP.queue { s with pending := s.pending.insert b.hash b } b) := by
  unfold OMP.handle OMP.handleAux
  rw [h.allowed]
  simp only [Bool.false_eq_true, if_false]
  unfold OMP.accept
  have h1 : s.finished.contains b.hash = false := by simp [LRU.contains, h.new]
  have h2 : s.finished.contains b.parentHash = false := by simp [LRU.contains, h.parent]
  simp only [h1, h2, hi, Bool.false_and, Bool.false_eq_true, if_false, if_neg h.notNext]
  unfold OMP.onUnconnected
  rw [if_neg (by have := h.heavy; simp only []; omega)]

/-- **C131**: blocks without a connection to what is finished, and as heavy as the head, are put aside and nothing else happens, however many come. -/
theorem C131_aside {s : OMP} {bs : List PB} (hi : s.initEmpty = false) (h : ∀ b ∈ bs, Unconnected s b) :
    ∃ s', s.run o (bs.map OOp.block) = .ok s' ∧ s'.log = s.log ∧ s'.lastHash = s.lastHash ∧ s'.finished = s.finished := by
  induction bs generalizing s with
  | nil => exact ⟨s, rfl, rfl, rfl, rfl⟩
  | cons b bs ih =>
    obtain ⟨s', g1, g2, g3, g4⟩ := ih (s := OMP.queue { s with pending := s.pending.insert b.hash b } b) hi
      (fun x hx => by have := h x (by simp [hx]); exact ⟨this.new, this.parent, this.notNext, this.heavy, this.allowed⟩)
    refine ⟨s', ?_, g2, g3, g4⟩
    unfold OMP.run at g1 ⊢
    rw [List.map_cons, List.foldlM_cons]
    show (s.handle o b >>= _) = _
    rw [unconnected_step hi (h b (by simp))]
    exact g1

/-- A fork below the stored block `S`: `P` is the parent of `S`, `F` is another child of `P`, and `fs` is a chain on `F`; `F` and `fs` are heavier than `S`. -/
structure Spec.ForkBelow (cfg : Config) (P S F : PB) (fs : List PB) : Prop where
  stored : S.hash = cfg.lastHash ∧ S.weight = cfg.lastWeight
  parent : S.parentHash = P.hash ∧ P.weight < S.weight
  fork : F.parentHash = P.hash ∧ S.weight < F.weight
  chain : Linked F.hash fs ∧ Rising F.weight fs
  hashes : (Hash.zero :: P.hash :: S.hash :: F.hash :: Spec.hashes fs).Nodup
  below : P.parentHash ≠ P.hash ∧ P.parentHash ≠ S.hash ∧ P.parentHash ≠ F.hash
  whitelist : ∀ b ∈ P :: S :: F :: fs, ¬ Forbidden cfg.whitelist b

theorem linked_parents {r : Hash} {l : List PB} (h : Linked r l) : ∀ b ∈ l, b.parentHash = r ∨ b.parentHash ∈ hashes l := by
  induction l generalizing r with
  | nil => simp
  | cons x l ih =>
    intro b hb
    rcases List.mem_cons.mp hb with rfl | hb
    · exact .inl h.1
    · exact .inr (by
        rcases ih h.2 b hb with e | e
        · rw [e]; simp [hashes]
        · simp only [hashes, List.map_cons, List.mem_cons]; exact .inr e)

/-- **C131** refuted, for ever: the fork's first block comes before the older block it is on. However long the fork grows, the consumer stays on the stored
block and tells the application nothing. -/
theorem C131_never_refuted {cfg : Config} {P S F : PB} {fs : List PB} {s0 : OMP} (h : ForkBelow cfg P S F fs) (hn : newOMP cfg = .ok s0) :
    ∃ s, s0.run o ((F :: P :: S :: fs).map OOp.block) = .ok s ∧ s.log = [] ∧ s.lastHash = cfg.lastHash := by
  have hnd := h.hashes
  simp only [List.nodup_cons, List.mem_cons, not_or] at hnd
  obtain ⟨⟨z1, z2, z3, z4⟩, ⟨p1, p2, p3⟩, ⟨s1, s2⟩, f1, _⟩ := hnd
  have hS := h.stored.1
  have hSw := h.stored.2
  obtain ⟨b1, b2, b3⟩ := h.below
  obtain ⟨i1, i2, i3, i4, i5, i6, i7, i8⟩ := newOMP_inv (D := (· ∈ ([] : List PB))) hn
  have hth : 1 ≤ cfg.reorgThreshold := by
    unfold newOMP at hn
    split at hn
    · simp at hn
    · omega
  obtain ⟨r1, r2, r3, r4⟩ := newOMP_room (U := [cfg.lastHash, P.hash]) hn (by simp only [List.length_cons, List.length_nil]; omega) (by simp)
  have hbl : s0.blacklist = GMap.empty := by
    unfold newOMP at hn
    split at hn
    · simp at hn
    · simp only [Except.ok.injEq] at hn
      subst hn
      rfl
  have hi : s0.initEmpty = false := by rw [i6]; simp only [decide_eq_false_iff_not]; rw [← hS]; exact fun e => z2 e.symm
  have hex : ∀ s : OMP, s.whitelist = cfg.whitelist → s.blacklist = GMap.empty → ∀ b ∈ P :: S :: F :: fs, s.excludes b = false := by
    intro s e1 e2 b hb
    unfold OMP.excludes
    have hF := h.whitelist b hb
    rw [e1, e2]
    cases hg : cfg.whitelist.get? (toUint64 b.number) with
    | none => rfl
    | some x =>
      have : x = b.hash := Classical.byContradiction fun hc => hF ⟨x, hg, hc⟩
      simp only [this, ne_eq, not_true_eq_false, decide_false, Bool.false_or]
      rfl
  -- the fork's first block is put aside
  have hF := unconnected_step (o := o) hi (b := F) ⟨by rw [r2, ← hS]; simp; exact fun e => s1 e.symm,
    by rw [r2, h.fork.1, ← hS]; simpa using p1, by rw [h.fork.1, i2, ← hS]; exact p1, by rw [i3, ← hSw]; exact Nat.le_of_lt h.fork.2,
    hex s0 i4 hbl F (by simp)⟩
  generalize hs1 : OMP.queue { s0 with pending := s0.pending.insert F.hash F } F = t1 at hF
  have e1 : t1.finished = s0.finished ∧ t1.lastHash = s0.lastHash ∧ t1.lastWeight = s0.lastWeight ∧ t1.log = s0.log ∧ t1.initEmpty = s0.initEmpty ∧
      t1.whitelist = s0.whitelist ∧ t1.blacklist = s0.blacklist ∧ t1.pending = s0.pending.insert F.hash F := by subst hs1; exact ⟨rfl, rfl, rfl, rfl, rfl, rfl, rfl, rfl⟩
  obtain ⟨a1, a2, a3, a4, a5, a6, a7, a8⟩ := e1
  -- the older block is marked as finished
  have hP : ∃ t2, t1.handle o P = .ok t2 ∧ (∀ x ∈ t2.finished.items, x = cfg.lastHash ∨ x = P.hash) ∧ cfg.lastHash ∈ t2.finished.items ∧
      t2.lastHash = cfg.lastHash ∧ t2.lastWeight = cfg.lastWeight ∧ t2.log = [] ∧ t2.initEmpty = false ∧ t2.whitelist = cfg.whitelist ∧
      t2.blacklist = GMap.empty := by
    unfold OMP.handle OMP.handleAux
    rw [hex t1 (a6.trans i4) (a7.trans hbl) P (by simp)]
    simp only [Bool.false_eq_true, if_false]
    unfold OMP.accept
    have c1 : t1.finished.contains P.hash = false := by simp [LRU.contains, a1, r2, ← hS, p1]
    have c2 : t1.finished.contains P.parentHash = false := by simp [LRU.contains, a1, r2, ← hS, b2]
    have c3 : ¬ P.parentHash = t1.lastHash := by rw [a2, i2, ← hS]; exact b2
    rw [if_neg (by simp [c1]), if_neg c3, if_neg (by simp [a5, hi]), if_neg (by simp [c2])]
    unfold OMP.onUnconnected
    rw [if_pos (by simp only []; rw [a3, i3, ← hSw]; exact h.parent.2)]
    have c4 : OMP.tooOld { t1 with pending := t1.pending.insert P.hash P } P = false := by
      unfold OMP.tooOld
      have : (t1.pending.insert P.hash P).get? t1.lastHash = none := by
        rw [a2, i2, ← hS, GMap.get?_insert, if_neg p1, a8, GMap.get?_insert, if_neg (fun e => s1 e.symm)]
        cases hg : s0.pending.get? S.hash with
        | none => rfl
        | some b => have := (i1.pend _ _ hg).2; simp at this
      simp only [this]
    rw [c4]
    simp only [Bool.false_eq_true, if_false]
    obtain ⟨m, hm1, hm2, hm3⟩ := (finAdd_mark (o := o) (U := [cfg.lastHash, P.hash]) { t1 with pending := t1.pending.insert P.hash P } (h := P.hash)
      ⟨by simp only [a1]; exact r1.nodup, by simp only [a1]; exact r1.sub, by simp only [a1]; exact r1.fits⟩ (by simp)).total
    rw [hm1]
    refine ⟨_, rfl, ?_, ?_, ?_, ?_, ?_, ?_, ?_, ?_⟩
    · intro x hx
      rcases hm2.shrink.finished x hx with e | e
      · left; simp only [a1, r2] at e; simpa using e
      · exact .inr e
    · exact hm2.mono _ (by simp only [a1, r2]; simp)
    · exact hm2.shrink.lastHash.trans (a2.trans i2)
    · exact hm2.shrink.lastWeight.trans (a3.trans i3)
    · exact hm2.log.trans (a4.trans i5)
    · exact hm2.shrink.initEmpty.trans (a5.trans hi)
    · exact hm2.shrink.whitelist.trans (a6.trans i4)
    · exact hm2.shrink.blacklist.trans (a7.trans hbl)
  obtain ⟨t2, hP, d1, d2, d3, d4, d5, d6, d7, d8⟩ := hP
  -- the stored block is known
  have hSt : t2.handle o S = .ok { t2 with pending := t2.pending.insert S.hash S } := by
    unfold OMP.handle OMP.handleAux
    rw [hex t2 d7 d8 S (by simp)]
    simp only [Bool.false_eq_true, if_false]
    unfold OMP.accept
    rw [if_pos]
    simp [LRU.contains, hS, d2]
  -- and the rest of the fork is put aside
  have hne : ∀ x, x = cfg.lastHash ∨ x = P.hash → x ∉ F.hash :: hashes fs := by
    rintro x (rfl | rfl)
    · rw [← hS]; simp [s1, s2]
    · simp [p2, p3]
  obtain ⟨s, g1, g2, g3, g4⟩ := C131_aside (o := o) (s := { t2 with pending := t2.pending.insert S.hash S }) (bs := fs) d6 (fun b hb => by
    have hin : b.hash ∈ F.hash :: hashes fs := List.mem_cons_of_mem _ (mem_hashes hb)
    have hpin : b.parentHash ∈ F.hash :: hashes fs := by
      rcases linked_parents h.chain.1 b hb with e | e
      · rw [e]; simp
      · exact List.mem_cons_of_mem _ e
    refine ⟨fun e => hne _ (d1 _ e) hin, fun e => hne _ (d1 _ e) hpin, fun e => hne _ (.inl (e.trans d3)) hpin, ?_, hex _ d7 d8 b (by simp [hb])⟩
    show t2.lastWeight ≤ _
    have := rising_above h.chain.2 b hb
    have := h.fork.2
    rw [d4, ← hSw]; omega)
  refine ⟨s, ?_, g2.trans d5, g3.trans d3⟩
  unfold OMP.run at g1 ⊢
  simp only [List.map_cons, List.foldlM_cons]
  show (s0.handle o F >>= _) = _
  rw [hF]
  show (t1.handle o P >>= _) = _
  rw [hP]
  show (t2.handle o S >>= _) = _
  rw [hSt]
  exact g1

/-- What one would like: a consumer started from a stored block that gets all blocks of a tree that contains the stored block, in an order as given, ends on a
heaviest block. -/
def Spec.FollowsBelow (o : MapOrder) (order : Hash → List PB → Prop) : Prop :=
  ∀ (W : World) (cfg : Config) (root : Hash) (bs : List PB) (s0 s : OMP), cfg.lastHash ≠ Hash.zero → cfg.lastWeight = W.weight cfg.lastHash →
    FromWorld W bs → (∀ b ∈ bs, W.Heavier b) → (∀ b ∈ bs, W.Numbered b) → FitsWindow cfg bs → (∀ b ∈ bs, ¬ Forbidden cfg.whitelist b) →
    TreeOf root bs → cfg.lastHash ∈ hashes bs → order root bs → newOMP cfg = .ok s0 → s0.run o (bs.map OOp.block) = .ok s → Heaviest bs s.lastHash

/-- Block 2 is stored. -/
def exBelowCfg : Config := { exOCfg with lastHash := exHash 2, lastWeight := 10 }

/-- Block 1 with its children 2 and 3, and 4 on top of 3. -/
def exBelowTree : List PB := [ob 1 0 10 5, ob 2 1 11 10, ob 3 1 11 20, ob 4 3 12 25]

/-- **C131** refuted: block 3 comes before block 1; the consumer stays on block 2. -/
theorem C131_refuted_before : ¬ FollowsBelow .plain (fun _ _ => True) := by
  intro h
  obtain ⟨s, h1, h2⟩ := ex_ok (r := (omp0 exBelowCfg).run .plain ([ob 3 1 11 20, ob 1 0 10 5, ob 2 1 11 10, ob 4 3 12 25].map OOp.block))
    (fun s => decide (s.lastHash = exHash 2)) (by decide +kernel)
  have := h (worldOf exBelowTree 9) exBelowCfg (exHash 1) [ob 3 1 11 20, ob 1 0 10 5, ob 2 1 11 10, ob 4 3 12 25] (omp0 exBelowCfg) s (by decide)
    (by decide +kernel) (by decide +kernel) (by decide +kernel) (by decide +kernel)
    ⟨[exHash 1, exHash 2, exHash 3, exHash 4], by decide, by decide, by decide⟩ (by
      rintro b - ⟨x, hx, -⟩; simp [exBelowCfg, exOCfg, exCfg] at hx) ⟨by decide, by decide⟩ (by decide) trivial (omp0_new _ (by decide)) h1
  simp only [decide_eq_true_eq] at h2
  rw [h2] at this
  unfold Heaviest at this
  revert this
  decide

/-- **C131** refuted: parents come first, but the fork comes before the stored block; the consumer stays on block 2. -/
theorem C131_refuted_late : ¬ FollowsBelow .plain ParentsFirst := by
  intro h
  obtain ⟨s, h1, h2⟩ := ex_ok (r := (omp0 exBelowCfg).run .plain ([ob 1 0 10 5, ob 3 1 11 20, ob 2 1 11 10].map OOp.block))
    (fun s => decide (s.lastHash = exHash 2)) (by decide +kernel)
  have := h (worldOf exBelowTree 9) exBelowCfg (exHash 1) [ob 1 0 10 5, ob 3 1 11 20, ob 2 1 11 10] (omp0 exBelowCfg) s (by decide)
    (by decide +kernel) (by decide +kernel) (by decide +kernel) (by decide +kernel)
    ⟨[exHash 1, exHash 2, exHash 3], by decide, by decide, by decide⟩ (by
      rintro b - ⟨x, hx, -⟩; simp [exBelowCfg, exOCfg, exCfg] at hx) ⟨by decide, by decide⟩ (by decide) (parentsFirst_of (by decide)) (omp0_new _ (by decide)) h1
  simp only [decide_eq_true_eq] at h2
  rw [h2] at this
  unfold Heaviest at this
  revert this
  decide

/-- `C131_heaviest_partial` on the same tree: blocks 1 and 2 first. -/
example : ∃ s1 s, (omp0 exBelowCfg).run .plain ([ob 1 0 10 5, ob 2 1 11 10].map OOp.block) = .ok s1 ∧ s1.log = [] ∧
    s1.run .plain ([ob 3 1 11 20, ob 4 3 12 25].map OOp.block) = .ok s ∧ FirstHeaviest exBelowTree s.lastHash :=
  C131_heaviest_partial (W := worldOf exBelowTree 9) (cfg := exBelowCfg) (root := exHash 1) (by decide) (by decide +kernel) (by decide +kernel)
    (by decide +kernel) (by decide +kernel) ⟨[exHash 1, exHash 2, exHash 3, exHash 4], by decide, by decide, by decide⟩ (by
      rintro b - ⟨x, hx, -⟩; simp [exBelowCfg, exOCfg, exCfg] at hx) (parentsFirst_of (by decide)) (by decide) (by decide) (omp0_new _ (by decide))

/-- `C131_never_refuted`: the hypotheses are met by this tree. -/
example : ForkBelow exBelowCfg (ob 1 0 10 5) (ob 2 1 11 10) (ob 3 1 11 20) [ob 4 3 12 25] := by
  refine ⟨⟨rfl, rfl⟩, ⟨rfl, by decide⟩, ⟨rfl, by decide⟩, ⟨⟨rfl, trivial⟩, ⟨by decide, trivial⟩⟩, by decide, by decide, ?_⟩
  rintro b - ⟨x, hx, -⟩
  simp [exBelowCfg, exOCfg, exCfg] at hx

end Verif
