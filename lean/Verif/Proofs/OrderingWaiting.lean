import Verif.Proofs.OrderingBound
/-! The blocks kept by the ordering layer: those remembered as finished, and those left waiting. -/
namespace Verif
open Spec

theorem LRU.mem_add_or {K : Type} [DecidableEq K] {c : LRU K} {k x : K} (h : x ∈ c.items) :
    x ∈ (c.add k).1.items ∨ (c.add k).2 = some x := by
  unfold LRU.add
  split
  · by_cases e : x = k
    · left; simp [e]
    · left; simp [e, h]
  · split
    · left; simp [h]
    · rename_i h1 h2
      simp only []
      have hm : x ∈ k :: c.items := List.mem_cons_of_mem _ h
      have hne : (k :: c.items) ≠ [] := by simp
      rw [← List.dropLast_concat_getLast hne] at hm
      rcases List.mem_append.mp hm with h3 | h3
      · exact .inl h3
      · right
        rw [List.getLast?_eq_some_getLast hne]
        simpa using (List.mem_singleton.mp h3).symm

/-- Blocks are kept under their own hash, and every block kept is remembered as finished or is one of `S`. -/
def Kept (S : Hash → Prop) (s : OMP) : Prop :=
  PendKeys s ∧ ∀ h b, s.pending.get? h = some b → h ∈ s.finished.items ∨ S h

variable {o : MapOrder} {S : Hash → Prop}

theorem Kept.mono {S S' : Hash → Prop} {s : OMP} (h : Kept S s) (hS : ∀ x, S x → S' x) : Kept S' s :=
  ⟨h.1, fun x b hb => (h.2 x b hb).imp id (hS x)⟩

theorem evictAux_kept (n : Nat) (s : OMP) (h : Hash) (hs : Kept (fun x => S x ∨ x = h) s) :
    Out (fun _ => True) (Kept S) (OMP.evictAux o n s h) := by
  induction n generalizing s h with
  | zero => trivial
  | succ n ih =>
    unfold OMP.evictAux
    split
    · rename_i hn
      refine ⟨hs.1, fun x b hb => ?_⟩
      rcases hs.2 x b hb with h1 | h1 | h1
      · exact .inl h1
      · exact .inr h1
      · subst h1; rw [hn] at hb; simp at hb
    · rename_i pb hp
      have e := hs.1 _ _ hp
      have h1 : Kept S { s with pending := s.pending.erase pb.hash, log := s.log ++ [.evictOlder pb.number] } := by
        refine ⟨fun x b hb => hs.1 x b (Sub.erase _ _ x b hb), fun x b hb => ?_⟩
        simp only [GMap.get?_erase] at hb
        split at hb
        · simp at hb
        · rename_i hx
          rcases hs.2 x b hb with h1 | h1 | h1
          · exact .inl h1
          · exact .inr h1
          · exact (hx (e.trans h1.symm)).elim
      refine (ih _ _ (h1.mono (fun _ => .inl))).bind ?_
      intro s' hs'
      split
      · exact hs'
      · simp only []
        refine Out.bind (P := Kept S) ?_ (fun s2 h2 => h2)
        refine Out.foldlM ?_ hs'
        intro t x _ ht
        split
        · exact ht
        · exact ih _ _ (ht.mono (fun _ => .inl))

theorem finAdd_kept (s : OMP) (h : Hash) (hs : Kept S s) : Out (fun _ => True) (Kept S) (s.finAdd o h) := by
  unfold OMP.finAdd
  simp only []
  split
  · rename_i hn
    refine ⟨hs.1, fun x b hb => ?_⟩
    rcases hs.2 x b hb with h1 | h1
    · rcases LRU.mem_add_or (k := h) h1 with h2 | h2
      · exact .inl h2
      · rw [hn] at h2; simp at h2
    · exact .inr h1
  · rename_i k hk
    refine evictAux_kept _ _ _ ⟨hs.1, fun x b hb => ?_⟩
    rcases hs.2 x b hb with h1 | h1
    · rcases LRU.mem_add_or (k := h) h1 with h2 | h2
      · exact .inl h2
      · rw [hk] at h2
        exact .inr (.inr (by simpa using h2.symm))
    · exact .inr (.inl h1)

theorem finishChildren_kept (n : Nat) (s : OMP) (h : Hash) (hs : Kept S s) :
    Out (fun _ => True) (Kept S) (OMP.finishPendingChildrenAux o n s h) := by
  induction n generalizing s h with
  | zero => trivial
  | succ n ih =>
    unfold OMP.finishPendingChildrenAux
    simp only []
    refine (finAdd_kept s h hs).bind ?_
    intro s' hs'
    split
    · exact hs'
    · exact Out.foldlM (fun t x _ ht => ih _ _ ht) (by exact hs')

theorem finishSiblings_kept (s : OMP) (pb : PB) (hs : Kept S s) : Out (fun _ => True) (Kept S) (s.finishSiblings o pb) := by
  unfold OMP.finishSiblings
  split
  · exact hs
  · refine Out.foldlM ?_ (by exact hs)
    intro t x _ ht
    split
    · exact finishChildren_kept _ _ _ ht
    · exact ht

theorem emitLoop_kept (n : Nat) (s : OMP) (new : List PB) (hs : Kept S s) :
    Out (fun _ => True) (fun r => Kept S r.1) (OMP.emitLoop o n s new) := by
  induction n generalizing s new with
  | zero => trivial
  | succ n ih =>
    unfold OMP.emitLoop
    refine (out_top _).bind ?_
    intro r _
    split
    · exact hs
    · simp only []
      split
      · trivial
      · refine (finishSiblings_kept _ _ (by exact hs)).bind ?_
        intro s' hs'
        exact (finAdd_kept _ _ (by exact hs')).bind (fun s2 h2 => ih _ _ h2)

theorem prepareEmit_kept (s : OMP) (new old : List PB) (hs : Kept S s) :
    Out (fun _ => True) (Kept S) (s.prepareEmit o new old) := by
  unfold OMP.prepareEmit
  refine Out.bind (P := Kept S) ?_ (fun s1 h1 => (emitLoop_kept _ _ _ h1).bind (fun r hr => hr))
  unfold OMP.emitStart
  split
  · exact hs
  · simp only []
    exact (finishSiblings_kept _ _ (by exact hs)).bind (fun s' h' => finAdd_kept _ _ h')

theorem handleAux_kept (n : Nat) (s : OMP) (pb : PB) (r : Bool) (hs : Kept S s) (hp : pb.hash ∈ s.finished.items ∨ S pb.hash) :
    Out (fun _ => True) (Kept S) (OMP.handleAux o n s pb r) := by
  induction n generalizing s pb r with
  | zero => trivial
  | succ n ih =>
    unfold OMP.handleAux
    split
    · exact hs
    · have hs1 : Kept S { s with pending := s.pending.insert pb.hash pb } := by
        refine ⟨fun x b hb => ?_, fun x b hb => ?_⟩
        · simp only [GMap.get?_insert] at hb
          split at hb
          · rename_i e
            simp only [Option.some.injEq] at hb
            rw [← hb]; exact e
          · exact hs.1 x b hb
        · simp only [GMap.get?_insert] at hb
          split at hb
          · rename_i e
            subst e; exact hp
          · exact hs.2 x b hb
      unfold OMP.accept
      split
      · exact hs1
      split
      · exact prepareEmit_kept _ _ _ hs1
      split
      · exact prepareEmit_kept _ _ _ hs1
      split
      · unfold OMP.onConnected
        split
        · refine (out_top _).bind ?_
          intro x _
          split
          · exact prepareEmit_kept _ _ _ hs1
          · exact hs1
          · exact hs1
        · refine (finAdd_kept _ _ hs1).bind ?_
          intro s2 h2
          refine (out_top _).bind ?_
          intro x _
          split
          · exact h2
          · simp only []
            split
            · exact h2
            · rename_i c hc
              have e := h2.1 _ _ hc
              exact (ih _ _ _ (by exact h2) (by rw [e]; exact h2.2 _ _ hc)).bind (fun s3 h3 => h3)
      · unfold OMP.onUnconnected
        split
        · split
          · exact ⟨fun x b hb => hs1.1 x b (Sub.erase _ _ x b hb), fun x b hb => hs1.2 x b (Sub.erase _ _ x b hb)⟩
          · exact (finAdd_kept _ _ hs1).bind (fun s2 h2 => h2)
        · exact hs1

/-- After a block is handled, it is remembered as finished or it is one more block that waits. -/
theorem op_kept {s s' : OMP} {x : OOp} (hs : Kept S s) (h : s.op o x = .ok s') :
    Kept (fun h => S h ∨ ∃ b, x = .block b ∧ b.hash = h ∧ h ∉ s'.finished.items ∧ s'.pending.contains h = true) s' := by
  cases x with
  | reorg n hash =>
    simp only [OMP.op, Except.ok.injEq] at h
    subst h
    exact Kept.mono (show Kept S (s.handleReorg n hash) from hs) (fun _ => .inl)
  | block b =>
    have h1 := (handleAux_kept (o := o) (S := fun x => S x ∨ x = b.hash) (s.queued.size + 2) s b false (hs.mono (fun _ => .inl))
      (.inr (.inr rfl))).ok h
    refine ⟨h1.1, fun x c hc => ?_⟩
    rcases h1.2 x c hc with h2 | h2 | h2
    · exact .inl h2
    · exact .inr (.inl h2)
    · by_cases hf : x ∈ s'.finished.items
      · exact .inl hf
      · exact .inr (.inr ⟨b, rfl, h2.symm, hf, (GMap.contains_iff_mem_keys _).mpr ((GMap.mem_keys_iff _).mpr ⟨c, hc⟩)⟩)

end Verif
