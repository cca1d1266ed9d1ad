import Verif.Spec.Recent
import Verif.Props.OrderingMore
/-!
# C128: the ordering layer ends whatever numbers and weights blocks have

C36 has numbers that go up by one along parent links. Here nothing is said about numbers and weights: handling ends if the parent links of the delivered
blocks do not run in a circle, and need not end if they do.
-/
namespace Verif

/-- No block is, over one or more parent links, its own ancestor. -/
def Spec.NoCircle (bs : List PB) : Prop := ∀ b ∈ bs, ¬ Spec.Above bs b.hash b.parentHash

/-- Blocks have hashes: not zero, and blocks with the same hash have the same parent. -/
structure Spec.Headers (bs : List PB) : Prop where
  nonzero : ∀ b ∈ bs, b.hash ≠ Hash.zero
  parent : ∀ a ∈ bs, ∀ b ∈ bs, a.hash = b.hash → a.parentHash = b.parentHash

open Spec

variable {o : MapOrder}

theorem Spec.Above.mono {bs cs : List PB} (h : ∀ b ∈ bs, b ∈ cs) {a x : Hash} (hA : Above bs a x) : Above cs a x := by
  induction hA with
  | self => exact .self
  | step hb _ ih => exact .step (h _ hb) ih

/-- A depth for every hash: without a circle, blocks can be numbered. -/
theorem exists_depth (bs : List PB) (hp : ∀ a ∈ bs, ∀ b ∈ bs, a.hash = b.hash → a.parentHash = b.parentHash) (hc : NoCircle bs) :
    ∃ depth : Hash → Int, ∀ b ∈ bs, depth b.hash = depth b.parentHash + 1 := by
  induction bs with
  | nil => exact ⟨fun _ => 0, by simp⟩
  | cons b bs ih =>
    obtain ⟨d, hd⟩ := ih (fun a ha c hc => hp a (by simp [ha]) c (by simp [hc]))
      (fun c hm hA => hc c (by simp [hm]) (hA.mono (fun x hx => by simp [hx])))
    by_cases hm : ∃ c ∈ bs, c.hash = b.hash
    · obtain ⟨c, h1, h2⟩ := hm
      refine ⟨d, fun x hx => ?_⟩
      rcases List.mem_cons.mp hx with rfl | hx
      · rw [← h2, hd c h1, hp c (by simp [h1]) x (by simp) h2]
      · exact hd x hx
    · classical
      refine ⟨fun h => if Above bs b.hash h then d h + (d b.parentHash + 1 - d b.hash) else d h, fun x hx => ?_⟩
      rcases List.mem_cons.mp hx with rfl | hx
      · have h1 : ¬ Above bs x.hash x.parentHash := fun hA => hc x (by simp) (hA.mono (fun y hy => by simp [hy]))
        simp only [if_pos (Above.self), if_neg h1]
        omega
      · have h2 := hd x hx
        by_cases hA : Above bs b.hash x.parentHash
        · simp only [if_pos hA, if_pos (Above.step hx hA)]
          omega
        · have h3 : ¬ Above bs b.hash x.hash := by
            intro h
            generalize he : x.hash = z at h
            cases h with
            | self => exact hm ⟨x, hx, he⟩
            | @step y hy h =>
              rw [hp y (by simp [hy]) x (by simp [hx]) he.symm] at h
              exact hA h
          simp only [if_neg hA, if_neg h3]
          omega

/-- **C128**: no history of blocks and notifications fails to end unless parent links run in a circle. (`hang` is running out of the recursion bounds given in
the model.) -/
theorem C128_ends {cfg : Config} {ops : List OOp} {s0 : OMP} (hh : Headers (blocksOf ops)) (hc : NoCircle (blocksOf ops)) (hn : newOMP cfg = .ok s0) :
    s0.run o ops ≠ .error .hang := by
  obtain ⟨d, hd⟩ := exists_depth _ hh.parent hc
  have h := run_ends (o := o) (W := ⟨fun h => h, d, fun _ => 0⟩) (D := (· ∈ blocksOf ops)) ⟨hh.nonzero, fun a b ha hb e => hh.parent a ha b hb e⟩ hd
    (fun b hb => hb) (newOMP_inv (D := (· ∈ blocksOf ops)) hn).1
  intro e
  rw [e] at h
  exact absurd h (by simp [Out])

/-- **C128**, heavier blocks: blocks that are heavier than their parents have no circle, so handling them ends. -/
theorem C128_heavier {W : World} {cfg : Config} {ops : List OOp} {s0 : OMP} (hW : FromWorld W (blocksOf ops)) (hw : ∀ b ∈ blocksOf ops, W.Heavier b)
    (hn : newOMP cfg = .ok s0) : s0.run o ops ≠ .error .hang := by
  have up : ∀ {a h : Hash}, Above (blocksOf ops) a h → W.weight a ≤ W.weight h := by
    intro a h hA
    induction hA with
    | self => exact Nat.le_refl _
    | step hb _ ih => exact Nat.le_trans ih (Nat.le_of_lt (hw _ hb))
  refine C128_ends ⟨fun b hb => (hW b hb).2, fun a ha b hb e => ?_⟩ (fun b hb hA => ?_) hn
  · rw [(hW a ha).1.parent, (hW b hb).1.parent, e]
  · exact Nat.lt_irrefl _ (Nat.lt_of_lt_of_le (hw b hb) (up hA))

/-! ## Circles -/

/-- A set of held blocks, each the child of another of them, all of them higher than `n`: they contain a circle. -/
def Spec.Round (pending : GMap Hash PB) (n : Int) (S : Hash → Prop) : Prop :=
  ∀ h, S h → ∃ b, pending.get? h = some b ∧ n < b.number ∧ S b.parentHash

/-- The search for the common ancestor goes round for ever: no bound is enough. -/
theorem C128_round {pending : GMap Hash PB} {n : Int} {S : Hash → Prop} (h : Round pending (n + 1) S) {b : PB} (hb : n + 1 < b.number) (hS : S b.parentHash) :
    ∀ (fuel : Nat) (bs : List PB), reorgInner pending n fuel b bs = .error .hang
  | 0, _ => rfl
  | fuel + 1, bs => by
    obtain ⟨p, h1, h2, h3⟩ := h _ hS
    unfold reorgInner
    rw [if_pos hb, h1]
    exact C128_round h h2 h3 fuel _

/-- **C128**, circles: once blocks that run in a circle are held, a heavier block on top of one of them is never done with. -/
theorem C128_circle {s : OMP} {pb last : PB} {S : Hash → Prop} (hl : s.pending.get? s.lastHash = some last) (hw : s.lastWeight < pb.weight)
    (hx : s.excludes pb = false) (hd : s.finished.contains pb.hash = false) (hp : s.finished.contains pb.parentHash = true) (hne : pb.parentHash ≠ s.lastHash)
    (hh : pb.hash ≠ s.lastHash) (h : Round s.pending (last.number + 1) S) (hb : last.number + 1 < pb.number) (hS : S pb.parentHash) (hn : ¬ S pb.hash) :
    s.handle o pb = .error .hang := by
  have hR : Round (s.pending.insert pb.hash pb) (last.number + 1) S := by
    intro x hxS
    obtain ⟨b, h1, h2⟩ := h x hxS
    have hne : pb.hash ≠ x := fun e => hn (e ▸ hxS)
    exact ⟨b, by rw [GMap.get?_insert_ne _ _ hne]; exact h1, h2⟩
  have hl' : (s.pending.insert pb.hash pb).get? s.lastHash = some last := by rw [GMap.get?_insert_ne _ _ hh]; exact hl
  unfold OMP.handle OMP.handleAux
  simp only [hx, Bool.false_eq_true, if_false]
  unfold OMP.accept
  simp only [hd, Bool.false_and, Bool.false_eq_true, if_false, hne, hp, Bool.not_true, Bool.and_false, if_true]
  unfold OMP.onConnected
  simp only [hl', hw, decide_true]
  unfold prepareReorg reorgOuter
  rw [C128_round hR hb hS]
  rfl

/-- Block 2 becomes the head, then comes a block that names itself as its parent, then one on top of it. -/
def exRound : List PB := [ob 2 1 11 20, ob 5 5 100 1, ob 7 5 101 30]

/-- `C128_circle`, a whole history: three blocks suffice. -/
theorem C128_three : (omp0 exOCfg).run .plain (exRound.map OOp.block) = .error .hang ∧ ¬ NoCircle exRound :=
  ⟨ex_err (by decide +kernel), fun h => h (ob 5 5 100 1) (by simp [exRound]) .self⟩

/-! ## Examples -/

/-- `C128_circle`: after the first two of these blocks its hypotheses hold for the third, with the block that names itself for the circle. -/
example : ∃ s, (omp0 exOCfg).run .plain ((exRound.take 2).map OOp.block) = .ok s ∧
    (decide (s.lastWeight < (ob 7 5 101 30).weight) && !s.excludes (ob 7 5 101 30) && !s.finished.contains (exHash 7) && s.finished.contains (exHash 5) &&
      decide (exHash 5 ≠ s.lastHash) && decide (exHash 7 ≠ s.lastHash) && (s.pending.get? s.lastHash).any (fun l => l.number == 11) &&
      (s.pending.get? (exHash 5)).any (fun b => decide (12 < b.number) && b.parentHash == exHash 5)) = true := ex_ok _ (by decide +kernel)

/-- C128: the tree of C28 with numbers that mean nothing: no circle, and blocks that are not one above their parents. -/
def exOdd36 : List PB := [ob 2 1 7 20, ob 4 1 90 10, ob 3 2 (-4) 0]

example : Headers exOdd36 ∧ NoCircle exOdd36 ∧ newOMP exOCfg = .ok (omp0 exOCfg) := by
  refine ⟨⟨by decide, by decide⟩, ?_, omp0_new _ (by decide)⟩
  have low : ∀ {a h : Hash}, Above exOdd36 a h → a = h ∨ (a = exHash 2 ∧ h = exHash 3) ∨ a = exHash 1 := by
    intro a h hA
    induction hA with
    | self => exact .inl rfl
    | step hb _ ih =>
      simp only [exOdd36, List.mem_cons, List.not_mem_nil, or_false] at hb
      rcases hb with rfl | rfl | rfl
      · rcases ih with e | ⟨_, e⟩ | e
        · exact .inr (.inr e)
        · exact absurd e (by decide)
        · exact .inr (.inr e)
      · rcases ih with e | ⟨_, e⟩ | e
        · exact .inr (.inr e)
        · exact absurd e (by decide)
        · exact .inr (.inr e)
      · rcases ih with e | ⟨_, e⟩ | e
        · exact .inr (.inl ⟨e, rfl⟩)
        · exact absurd e (by decide)
        · exact .inr (.inr e)
  intro b hb hA
  simp only [exOdd36, List.mem_cons, List.not_mem_nil, or_false] at hb
  rcases hb with rfl | rfl | rfl <;> rcases low hA with e | ⟨e, e'⟩ | e <;> first | exact absurd e (by decide) | exact absurd e' (by decide)

end Verif
