import Verif.Spec.Ordering
/-! Which delivered blocks the ordering layer must still remember, in terms of the deliveries only. -/
namespace Verif.Spec

/-- The block `h` was delivered, and since its first delivery only blocks numbered `m` or higher were; at most `n` different
blocks numbered `m` or higher have been delivered at all. -/
def RecentAt (n : Int) (bs : List PB) (h : Hash) (m : Int) : Prop :=
  ∃ l1 x l2, bs = l1 ++ x :: l2 ∧ x.hash = h ∧ h ∉ hashes l1 ∧ (∀ y ∈ x :: l2, m ≤ y.number) ∧
    ∃ V : List Hash, (V.length : Int) ≤ n ∧ ∀ y ∈ bs, m ≤ y.number → y.hash ∈ V

/-- For some `m`. -/
def Recent (n : Int) (bs : List PB) (h : Hash) : Prop := ∃ m, RecentAt n bs h m

/-- Parent links of blocks in `bs` lead from `h` down to `a`. -/
inductive Above (bs : List PB) (a : Hash) : Hash → Prop
  | self : Above bs a a
  | step {b : PB} : b ∈ bs → Above bs a b.parentHash → Above bs a b.hash

/-- The block `b` arriving after `bs` is the root itself, as the first block; or repeats a recent block; or is new and its branch
leaves the branch of the heaviest block so far at a recent block. -/
def Tracked (n : Int) (root : Hash) (bs : List PB) (b : PB) : Prop :=
  (bs = [] ∧ b.hash = root) ∨ Recent n bs b.hash ∨
    (b.hash ∉ hashes bs ∧ ∃ a, Recent n bs a ∧ Above bs a b.parentHash ∧ ∀ h, FirstHeaviest bs h → Above bs a h)

/-- Every arrival is tracked. -/
def AllTracked (n : Int) (root : Hash) (bs : List PB) : Prop := ∀ l1 b l2, bs = l1 ++ b :: l2 → Tracked n root l1 b

/-- The number `k` is that of a block which, after some of the deliveries `bs`, had been delivered and was not recent any more. -/
def Forgotten (n : Int) (bs : List PB) (k : Int) : Prop := ∃ p rest, bs = p ++ rest ∧ ∃ x ∈ p, ¬ Recent n p x.hash ∧ k = x.number

end Verif.Spec
