import Verif.Proofs.OrderingTerm
/-! No block twice in the emitted chain; whole histories end. -/
namespace Verif
open Spec

variable {D : PB → Prop} {o : MapOrder}

theorem linked_nodup {W : World} {l : List PB} : ∀ {p : Hash}, Linked p l → (∀ b ∈ l, W.Numbered b) →
    (p :: hashes l).Nodup ∧ ∀ x ∈ hashes l, W.number p < W.number x := by
  induction l with
  | nil => intro p _ _; simp [hashes]
  | cons b l ih =>
    intro p h hN
    obtain ⟨h1, h2⟩ := ih h.2 (fun x hx => hN x (by simp [hx]))
    have hb := hN b (by simp)
    unfold World.Numbered at hb
    rw [h.1] at hb
    have h3 : ∀ x ∈ hashes (b :: l), W.number p < W.number x := by
      intro x hx
      simp only [hashes, List.map_cons, List.mem_cons] at hx
      rcases hx with e | hx
      · rw [e]; omega
      · have := h2 x hx; omega
    refine ⟨?_, h3⟩
    rw [List.nodup_cons]
    refine ⟨fun hm => ?_, by simpa [hashes] using h1⟩
    have := h3 p hm
    omega

/-- The chain a subscriber holds is linked and consists of added blocks. -/
theorem replays_linked {start base : Hash} {log : List OOut} {chain : List PB} (h : Replays start log base chain) :
    Linked base chain ∧ ∀ b ∈ chain, ∃ added removed, .update added removed ∈ log ∧ b ∈ added := by
  induction h with
  | start => exact ⟨trivial, by simp⟩
  | @step log x b b' c c' _ hf ih =>
    obtain ⟨h1, h2⟩ := ih
    have h2' : ∀ b ∈ c, ∃ added removed, OOut.update added removed ∈ log ++ [x] ∧ b ∈ added := by
      intro y hy
      obtain ⟨a, r, e1, e2⟩ := h2 y hy
      exact ⟨a, r, by simp [e1], e2⟩
    cases hf with
    | within e ne hl =>
      refine ⟨linked_append.mpr ⟨(linked_append.mp h1).1, hl⟩, ?_⟩
      intro y hy
      rcases List.mem_append.mp hy with hy | hy
      · exact h2' y (by simp [hy])
      · exact ⟨_, _, List.mem_append_right _ (List.mem_singleton.mpr rfl), hy⟩
    | beyond e ne h3 h4 hl =>
      exact ⟨hl, fun y hy => ⟨_, _, List.mem_append_right _ (List.mem_singleton.mpr rfl), hy⟩⟩
    | reorg => exact ⟨trivial, by simp⟩
    | evict => exact ⟨h1, h2'⟩

/-- A log that can be replayed can be replayed up to any point. -/
theorem replays_prefix {start base : Hash} {log : List OOut} {chain : List PB} (h : Replays start log base chain) :
    ∀ l1 l2, log = l1 ++ l2 → ∃ base' chain', Replays start l1 base' chain' := by
  induction h with
  | start =>
    intro l1 l2 e
    have := (List.append_eq_nil_iff.mp e.symm).1
    subst this
    exact ⟨_, _, .start⟩
  | @step log x b b' c c' hr hf ih =>
    intro l1 l2 e
    rcases List.eq_nil_or_concat l2 with rfl | ⟨l2', z, rfl⟩
    · rw [List.append_nil] at e; subst e
      exact ⟨_, _, hr.step hf⟩
    · rw [List.concat_eq_append, ← List.append_assoc] at e
      exact ih l1 l2' (List.append_inj' e rfl).1

/-- Whole histories end or panic. -/
theorem run_ends {W : World} {ops : List OOp} (hH : Hashed D) (hN : ∀ b, D b → W.Numbered b)
    (hD : ∀ b ∈ blocksOf ops, D b) : ∀ {s : OMP}, OInv D s → Out (· = Fault.panic) (OInv D) (s.run o ops) := by
  induction ops with
  | nil => intro s h; exact h
  | cons op ops ih =>
    intro s h
    unfold OMP.run
    rw [List.foldlM_cons]
    refine Out.bind (P := OInv D) ?_ (fun s' h' => ih (fun b hb => hD b (by
      rw [show op :: ops = [op] ++ ops from rfl, blocksOf_append]; simp [hb])) h')
    cases op with
    | reorg n hash => exact h.of_maps rfl rfl
    | block pb =>
      have hp : D pb := hD pb (mem_blocksOf (pre := []) rfl)
      have := above_size W.number s.queued pb.hash
      exact ((handleAux_ends hH hN _ s pb false h hp (by omega)).and
        (handle_out (N := False) (o := o) (fun h => h.elim) s pb h (fun _ => hp))).mono (fun _ h => h.1) (fun _ h => h.2.inv)

end Verif
