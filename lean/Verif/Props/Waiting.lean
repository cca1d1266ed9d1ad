import Verif.Proofs.OrderingWaiting
import Verif.Proofs.Kafka
import Verif.Props.OrderingMore
/-! C80: how many blocks the ordering layer keeps. -/
namespace Verif
open Spec

variable {o : MapOrder}

/-- A block with this hash was handled, and right afterwards it was kept without being finished. -/
def LeftWaiting (o : MapOrder) (s0 : OMP) (ops : List OOp) (h : Hash) : Prop :=
  ∃ (l : List OOp) (b : PB) (l' : List OOp) (s1 : OMP), ops = l ++ .block b :: l' ∧ s0.run o (l ++ [.block b]) = .ok s1 ∧
    b.hash = h ∧ s1.finished.contains h = false ∧ s1.pending.contains h = true

theorem orun_snoc {s0 s : OMP} {ops : List OOp} {x : OOp} (h : s0.run o (ops ++ [x]) = .ok s) :
    ∃ s1, s0.run o ops = .ok s1 ∧ s1.op o x = .ok s := by
  unfold OMP.run at h ⊢
  rw [List.foldlM_append, bind_ok] at h
  obtain ⟨s1, h1, h2⟩ := h
  refine ⟨s1, h1, ?_⟩
  rw [List.foldlM_cons, bind_ok] at h2
  obtain ⟨s2, h2, h3⟩ := h2
  simp only [List.foldlM_nil] at h3
  cases h3
  exact h2

theorem run_kept {s0 s : OMP} (h0 : Kept (fun _ => False) s0) {ops : List OOp} (h : s0.run o ops = .ok s) :
    Kept (LeftWaiting o s0 ops) s := by
  induction ops using snoc_induction generalizing s with
  | nil =>
    cases h
    exact h0.mono (fun _ h => h.elim)
  | snoc ops x ih =>
    obtain ⟨s1, h1, h2⟩ := orun_snoc h
    refine (op_kept (ih h1) h2).mono ?_
    rintro y (⟨l, b, l', t, rfl, h3, h4, h5⟩ | ⟨b, rfl, h3, h4, h5⟩)
    · exact ⟨l, b, l' ++ [x], t, by simp, h3, h4, h5⟩
    · refine ⟨ops, b, [], s, rfl, h, h3, ?_, h5⟩
      cases hc : s.finished.contains y with
      | false => rfl
      | true => exact (h4 ((LRU.contains_iff _ _).mp hc)).elim

/-- **C80**, the part that holds: beside the blocks it remembers as finished, of which there are at most `2 * ReorgThreshold`, the
ordering layer keeps only blocks that could not be placed when they were handled. -/
theorem C80_waiting_partial {cfg : Config} {ops : List OOp} {s0 s : OMP} (hn : newOMP cfg = .ok s0) (hr : s0.run o ops = .ok s)
    {w : List Hash} (hw : ∀ h, LeftWaiting o s0 ops h → h ∈ w) : (s.pending.size : Int) ≤ 2 * cfg.reorgThreshold + w.length := by
  have h0 : Kept (fun _ => False) s0 := by
    unfold newOMP at hn
    split at hn
    · simp at hn
    · simp only [Except.ok.injEq] at hn
      subst hn
      exact ⟨fun x b hb => by simp at hb, fun x b hb => by simp at hb⟩
  have h1 := run_kept h0 hr
  have h2 := nodup_length_le (l := s.pending.keys) (l' := s.finished.items ++ w) s.pending.nodup (fun x hx => by
    obtain ⟨b, hb⟩ := (GMap.mem_keys_iff _).mp hx
    rcases h1.2 x b hb with h | h
    · exact List.mem_append_left _ h
    · exact List.mem_append_right _ (hw x h))
  have h3 := C41_ordering hn hr
  unfold LRU.len at h3
  rw [List.length_append] at h2
  have h4 : s.pending.keys.length = s.pending.size := by simp [GMap.keys, GMap.size]
  omega

/-! ### Blocks with an unknown parent -/

/-- A block with the given weight, parent and hash. -/
def orphan (weight : Nat) (parent hash : Hash) : PB := { ob 0 0 0 weight with parentHash := parent, hash := hash }

theorem orphan_op {s : OMP} {parent hash : Hash} {w : Nat} (hw : s.whitelist = GMap.empty) (hb : s.blacklist = GMap.empty)
    (hi : s.initEmpty = false) (hp : parent ≠ s.lastHash) (hf : s.finished.contains parent = false)
    (hh : s.finished.contains hash = false) (hl : ¬ w < s.lastWeight) :
    s.op o (.block (orphan w parent hash)) =
      .ok (OMP.queue { s with pending := s.pending.insert hash (orphan w parent hash) } (orphan w parent hash)) := by
  have he : s.excludes (orphan w parent hash) = false := by
    unfold OMP.excludes
    rw [hw, hb]
    simp [GMap.contains]
  show OMP.handleAux o (s.queued.size + 1 + 1) s (orphan w parent hash) false = _
  unfold OMP.handleAux
  rw [if_neg (by rw [he]; simp)]
  unfold OMP.accept
  have e1 : (orphan w parent hash).hash = hash := rfl
  have e2 : (orphan w parent hash).parentHash = parent := rfl
  have e3 : (orphan w parent hash).weight = w := rfl
  simp only [e1, e2, hh, hi, hf, Bool.false_and, Bool.false_eq_true, if_false, if_neg hp]
  unfold OMP.onUnconnected
  rw [e3, if_neg hl]

/-- Any number of blocks with an unknown parent are all kept. -/
theorem orphans_kept {w : Nat} {parent : Hash} (hs : List Hash) {s : OMP} (hw : s.whitelist = GMap.empty)
    (hb : s.blacklist = GMap.empty) (hi : s.initEmpty = false) (hp : parent ≠ s.lastHash) (hf : s.finished.contains parent = false)
    (hh : ∀ h ∈ hs, s.finished.contains h = false) (hl : ¬ w < s.lastWeight) :
    ∃ s', s.run o (hs.map (fun h => .block (orphan w parent h))) = .ok s' ∧ (∀ h ∈ hs, h ∈ s'.pending.keys) ∧
      ∀ h ∈ s.pending.keys, h ∈ s'.pending.keys := by
  induction hs generalizing s with
  | nil => exact ⟨s, rfl, by simp, fun _ h => h⟩
  | cons h hs ih =>
    obtain ⟨s', h1, h2, h3⟩ := ih
      (s := OMP.queue { s with pending := s.pending.insert h (orphan w parent h) } (orphan w parent h)) hw hb hi hp hf
      (fun x hx => hh x (List.mem_cons_of_mem _ hx)) hl
    have key : ∀ x, x = h ∨ x ∈ s.pending.keys →
        x ∈ (OMP.queue { s with pending := s.pending.insert h (orphan w parent h) } (orphan w parent h)).pending.keys := by
      intro x hx
      refine (GMap.mem_keys_iff _).mpr ?_
      simp only [OMP.queue, GMap.get?_insert]
      split
      · exact ⟨_, rfl⟩
      · rename_i hne
        rcases hx with rfl | hx
        · exact (hne rfl).elim
        · exact (GMap.mem_keys_iff _).mp hx
    refine ⟨s', ?_, ?_, fun x hx => h3 x (key x (.inr hx))⟩
    · unfold OMP.run at h1 ⊢
      rw [List.map_cons, List.foldlM_cons, orphan_op hw hb hi hp hf (hh h (List.mem_cons_self ..)) hl]
      exact h1
    · intro x hx
      rcases List.mem_cons.mp hx with rfl | hx
      · exact h3 x (key x (.inl rfl))
      · exact h2 x hx

/-- The last `k` digits of `n` in base 256. -/
def digits256 : Nat → Nat → Bytes
  | 0, _ => []
  | k + 1, n => UInt8.ofNat (n % 256) :: digits256 k (n / 256)

theorem digits256_length (k n : Nat) : (digits256 k n).length = k := by
  induction k generalizing n with
  | zero => rfl
  | succ k ih => simp [digits256, ih]

theorem digits256_inj {k n m : Nat} (hn : n < 256 ^ k) (hm : m < 256 ^ k) (h : digits256 k n = digits256 k m) : n = m := by
  induction k generalizing n m with
  | zero => simp at hn hm; omega
  | succ k ih =>
    simp only [digits256, List.cons.injEq] at h
    have h1 := congrArg UInt8.toNat h.1
    simp only [UInt8.toNat_ofNat'] at h1
    have h2 := ih (n := n / 256) (m := m / 256) (by rw [Nat.pow_succ] at hn; omega) (by rw [Nat.pow_succ] at hm; omega) h.2
    omega

/-- The hash with number `n` and first byte `t`. -/
def numHash (t : UInt8) (n : Nat) : Hash := ⟨t :: digits256 31 n, by simp [digits256_length]⟩

theorem numHash_inj {t : UInt8} {n m : Nat} (hn : n < 256 ^ 31) (hm : m < 256 ^ 31) (h : numHash t n = numHash t m) : n = m := by
  unfold numHash at h
  simp only [Hash.mk.injEq, List.cons.injEq, true_and] at h
  exact digits256_inj hn hm h

/-- **C80** refuted: no bound below the number of hashes holds. Whatever the threshold, any number of different blocks with one parent
that never arrives are all kept, if they are at least as heavy as the starting block. -/
theorem C80_refuted {cfg : Config} {s0 : OMP} (hn : newOMP cfg = .ok s0) (hz : cfg.lastHash ≠ Hash.zero)
    (hw : cfg.whitelist = GMap.empty) (N : Nat) (hN : N < 256 ^ 31) :
    ∃ (bs : List PB) (parent : Hash) (s : OMP), bs.length = N ∧ (∀ b ∈ bs, b.parentHash = parent ∧ b.hash ≠ parent) ∧
      s0.run o (bs.map .block) = .ok s ∧ N ≤ s.pending.size := by
  obtain ⟨t, ht⟩ : ∃ t : UInt8, t ∉ cfg.lastHash.bytes.head? := by
    cases hb : cfg.lastHash.bytes with
    | nil => exact ⟨0, by simp⟩
    | cons a l => exact ⟨a + 1, by simp⟩
  have hne : ∀ n, numHash t n ≠ cfg.lastHash := by
    intro n e
    rw [← e] at ht
    simp [numHash] at ht
  unfold newOMP at hn
  split at hn
  · simp at hn
  simp only [Except.ok.injEq] at hn
  have hfin : ∀ n, s0.finished.contains (numHash t n) = false := by
    intro n
    cases hc : s0.finished.contains (numHash t n) with
    | false => rfl
    | true =>
      rw [← hn] at hc
      rcases LRU.mem_of_mem_add ((LRU.contains_iff _ _).mp hc) with h | h
      · exact (hne n h).elim
      · simp [LRU.new] at h
  let hs := (List.range N).map (fun n => numHash t (n + 1))
  obtain ⟨s, h1, h2, _⟩ := orphans_kept (o := o) (s := s0) (w := cfg.lastWeight) (parent := numHash t 0) hs (by rw [← hn]; exact hw)
    (by rw [← hn]) (by rw [← hn]; simpa using hz) (by rw [← hn]; exact hne 0) (hfin 0)
    (by intro h hh; obtain ⟨n, _, rfl⟩ := List.mem_map.mp hh; exact hfin _) (by rw [← hn]; simp)
  refine ⟨hs.map (orphan cfg.lastWeight (numHash t 0)), numHash t 0, s, by simp [hs], ?_, ?_, ?_⟩
  · intro b hb
    obtain ⟨h, hh, rfl⟩ := List.mem_map.mp hb
    obtain ⟨n, hm, rfl⟩ := List.mem_map.mp hh
    refine ⟨rfl, fun e => ?_⟩
    have := List.mem_range.mp hm
    have := numHash_inj (t := t) (n := n + 1) (m := 0) (by omega) (by omega) e
    omega
  · rw [List.map_map]; exact h1
  · have hd : hs.Nodup := by
      refine List.Pairwise.map _ ?_ ((List.pairwise_lt_range (n := N)).imp_of_mem (S := fun a b => a < b ∧ b < N) ?_)
      · rintro a b ⟨hab, hb⟩ e
        have := numHash_inj (t := t) (n := a + 1) (m := b + 1) (by omega) (by omega) e
        omega
      · intro a b _ hb hab
        exact ⟨hab, List.mem_range.mp hb⟩
    have := nodup_length_le hd h2
    simp only [hs, List.length_map, List.length_range, GMap.keys] at this
    exact this

/-- C80: three blocks of an unknown parent are left waiting, beside the blocks of the chain. -/
example : newOMP exOneCfg = .ok (omp0 exOneCfg) ∧
    ∃ s, (omp0 exOneCfg).run .plain (([ob 2 1 11 10, ob 9 30 11 10, ob 3 2 12 20, ob 8 30 11 12, ob 7 30 12 30].map OOp.block)) = .ok s ∧
      (s.pending.size == 4 && s.finished.len == 2) = true :=
  ⟨omp0_new _ (by decide), ex_ok _ (by decide +kernel)⟩

/-- C80: a configuration to which the refutation applies. -/
example : newOMP exOneCfg = .ok (omp0 exOneCfg) ∧ exOneCfg.lastHash ≠ Hash.zero ∧ exOneCfg.whitelist = GMap.empty :=
  ⟨omp0_new _ (by decide), by decide, rfl⟩

end Verif
