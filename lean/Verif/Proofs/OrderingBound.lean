import Verif.Proofs.OrderingBase
import Verif.Proofs.ConsumerBase
/-! The caches of remembered hashes never outgrow their capacity. -/
namespace Verif
open Spec

theorem filter_ne_length {K : Type} [DecidableEq K] {l : List K} {k : K} (h : k ∈ l) :
    (l.filter (fun x => x ≠ k)).length + 1 ≤ l.length := by
  induction l with
  | nil => simp at h
  | cons a l ih =>
    rw [List.filter_cons]
    split
    · rename_i hne
      have hne : a ≠ k := by simpa using hne
      rcases List.mem_cons.mp h with rfl | h
      · exact (hne rfl).elim
      · have := ih h
        simp only [List.length_cons]; omega
    · have := List.length_filter_le (fun x => decide (x ≠ k)) l
      simp only [List.length_cons]; omega

theorem LRU.add_length {K : Type} [DecidableEq K] (c : LRU K) (k : K) (h : c.items.length ≤ c.cap) :
    (c.add k).1.items.length ≤ c.cap := by
  unfold LRU.add
  split
  · rename_i hk
    have := filter_ne_length hk
    simp only [List.length_cons]; omega
  · split
    · simp only [List.length_cons]; omega
    · simp only [List.length_dropLast, List.length_cons]; omega

/-- The cache has capacity `c` and holds at most that many hashes; the reorg threshold is `r`. -/
def Bound (c : Nat) (r : Int) (s : OMP) : Prop := s.finished.cap = c ∧ s.finished.items.length ≤ c ∧ s.reorgThreshold = r

variable {o : MapOrder} {c : Nat} {rt : Int}

theorem evictAux_bound (n : Nat) (s : OMP) (h : Hash) (hs : Bound c rt s) : Out (fun _ => True) (Bound c rt) (OMP.evictAux o n s h) := by
  induction n generalizing s h with
  | zero => trivial
  | succ n ih =>
    unfold OMP.evictAux
    split
    · exact hs
    · refine (ih _ _ (by exact hs)).bind ?_
      intro s' hs'
      split
      · exact hs'
      · simp only []
        refine Out.bind (P := Bound c rt) ?_ (fun s2 h2 => h2)
        refine Out.foldlM ?_ hs'
        intro t x _ ht
        split
        · exact ht
        · exact ih _ _ ht

theorem finAdd_bound (s : OMP) (h : Hash) (hs : Bound c rt s) : Out (fun _ => True) (Bound c rt) (s.finAdd o h) := by
  have hb : Bound c rt { s with finished := (s.finished.add h).1 } := by
    refine ⟨?_, ?_, hs.2.2⟩
    · show (s.finished.add h).1.cap = c
      rw [LRU.add_cap]; exact hs.1
    · have := LRU.add_length s.finished h (by rw [hs.1]; exact hs.2.1)
      rw [hs.1] at this; exact this
  unfold OMP.finAdd
  simp only []
  split
  · exact hb
  · exact evictAux_bound _ _ _ hb

theorem finishChildren_bound (n : Nat) (s : OMP) (h : Hash) (hs : Bound c rt s) :
    Out (fun _ => True) (Bound c rt) (OMP.finishPendingChildrenAux o n s h) := by
  induction n generalizing s h with
  | zero => trivial
  | succ n ih =>
    unfold OMP.finishPendingChildrenAux
    simp only []
    refine (finAdd_bound s h hs).bind ?_
    intro s' hs'
    split
    · exact hs'
    · exact Out.foldlM (fun t x _ ht => ih _ _ ht) (by exact hs')

theorem finishSiblings_bound (s : OMP) (pb : PB) (hs : Bound c rt s) : Out (fun _ => True) (Bound c rt) (s.finishSiblings o pb) := by
  unfold OMP.finishSiblings
  split
  · exact hs
  · refine Out.foldlM ?_ (by exact hs)
    intro t x _ ht
    split
    · exact finishChildren_bound _ _ _ ht
    · exact ht

theorem emitLoop_bound (n : Nat) (s : OMP) (new : List PB) (hs : Bound c rt s) :
    Out (fun _ => True) (fun r => Bound c rt r.1) (OMP.emitLoop o n s new) := by
  induction n generalizing s new with
  | zero => trivial
  | succ n ih =>
    unfold OMP.emitLoop
    refine (out_top _).bind ?_
    intro r _
    split
    · exact hs
    · simp only []
      split
      · trivial
      · refine (finishSiblings_bound _ _ (by exact hs)).bind ?_
        intro s' hs'
        exact (finAdd_bound _ _ (by exact hs')).bind (fun s2 h2 => ih _ _ h2)

theorem prepareEmit_bound (s : OMP) (new old : List PB) (hs : Bound c rt s) :
    Out (fun _ => True) (Bound c rt) (s.prepareEmit o new old) := by
  unfold OMP.prepareEmit
  refine Out.bind (P := Bound c rt) ?_ (fun s1 h1 => (emitLoop_bound _ _ _ h1).bind (fun r hr => hr))
  unfold OMP.emitStart
  split
  · exact hs
  · simp only []
    exact (finishSiblings_bound _ _ (by exact hs)).bind (fun s' h' => finAdd_bound _ _ h')

theorem handleAux_bound (n : Nat) (s : OMP) (pb : PB) (r : Bool) (hs : Bound c rt s) :
    Out (fun _ => True) (Bound c rt) (OMP.handleAux o n s pb r) := by
  induction n generalizing s pb r with
  | zero => trivial
  | succ n ih =>
    unfold OMP.handleAux
    split
    · exact hs
    · have hs1 : Bound c rt { s with pending := s.pending.insert pb.hash pb } := hs
      unfold OMP.accept
      split
      · exact hs1
      split
      · exact prepareEmit_bound _ _ _ hs1
      split
      · exact prepareEmit_bound _ _ _ hs1
      split
      · unfold OMP.onConnected
        split
        · refine (out_top _).bind ?_
          intro x _
          split
          · exact prepareEmit_bound _ _ _ hs1
          · exact hs1
          · exact hs1
        · refine (finAdd_bound _ _ hs1).bind ?_
          intro s2 h2
          refine (out_top _).bind ?_
          intro x _
          split
          · exact h2
          · simp only []
            split
            · exact h2
            · exact (ih _ _ _ (by exact h2)).bind (fun s3 h3 => h3)
      · unfold OMP.onUnconnected
        split
        · split
          · exact hs1
          · exact (finAdd_bound _ _ hs1).bind (fun s2 h2 => h2)
        · exact hs1

theorem run_bound (s : OMP) (ops : List OOp) (hs : Bound c rt s) : Out (fun _ => True) (Bound c rt) (s.run o ops) := by
  refine Out.foldlM ?_ hs
  intro t x _ ht
  cases x with
  | block pb => exact handleAux_bound _ _ _ _ ht
  | reorg n h => exact ht

theorem newOMP_bound {cfg : Config} {s : OMP} (hn : newOMP cfg = .ok s) :
    Bound (2 * cfg.reorgThreshold).toNat cfg.reorgThreshold s := by
  unfold newOMP at hn
  split at hn
  · simp at hn
  · simp only [Except.ok.injEq] at hn
    subst hn
    exact ⟨LRU.add_cap _ _, LRU.add_length (LRU.new (2 * cfg.reorgThreshold).toNat) cfg.lastHash (Nat.zero_le _), rfl⟩

/-- The assembler's cache. -/
def MBound (t : Int) (mp : MP) : Prop :=
  mp.reorgThreshold = t ∧ mp.completed.cap = (2 * t).toNat ∧ mp.completed.items.length ≤ (2 * t).toNat

theorem drainEvict_keeps (ns : List Int) (mp : MP) : (mp.drainEvict ns).reorgThreshold = mp.reorgThreshold ∧
    (mp.drainEvict ns).completed = mp.completed := by
  unfold MP.drainEvict
  induction ns generalizing mp with
  | nil => exact ⟨rfl, rfl⟩
  | cons n ns ih => exact ih _

theorem mbound_finish {t : Int} {mp : MP} (h : MBound t mp) (x : Hash) : MBound t (mp.finish x) := by
  unfold MP.finish
  split
  · exact h
  · split
    · refine ⟨h.1, ?_, ?_⟩
      · show (mp.completed.add x).1.cap = _
        rw [LRU.add_cap]; exact h.2.1
      · have := LRU.add_length mp.completed x (by rw [h.2.1]; exact h.2.2)
        rw [h.2.1] at this; exact this
    · exact h

theorem mbound_parts (C : Codec) (env : Env) (t : Int) : XParts C env true (fun _ => True) (MBound t) where
  begin := by
    intro mp m _ _ h
    have := drainEvict_keeps (env.evict mp.tick) mp
    unfold MP.begin MP.updateResumption
    simp only []
    have h' : MBound t (mp.drainEvict (env.evict mp.tick)) := by
      unfold MBound; rw [this.1, this.2]; exact h
    split
    · exact h'
    · split
      · exact h'
      · exact h'
  short := .inl rfl
  reorg := by
    intro mp m _ _ h _
    unfold MP.onReorg
    simp only []
    have h' : (2 * mp.reorgThreshold).toNat = (2 * t).toNat := by rw [h.1]
    split
    · exact ⟨h.1, h', Nat.zero_le _⟩
    · exact ⟨h.1, h', Nat.zero_le _⟩
  add := by intro mp m b _ _ h _ _ _ _ _; exact h
  sub := by
    intro mp m _ _ h _ _ _ _
    unfold MP.onSubHeader
    split
    · exact h
    · simp only []
      split
      · exact h
      · split
        · exact h
        · split
          · trivial
          · exact mbound_finish (by exact h) _
  other := by
    intro mp m _ _ h _ _ _ _
    unfold MP.onOther
    split
    · exact h
    · split
      · trivial
      · exact mbound_finish (by exact h) _
  queued := by intros; trivial
  drop := by intro mp m _ _ _ h; exact h
  finish := by intro mp m _ _ _ h; exact mbound_finish h _

end Verif
