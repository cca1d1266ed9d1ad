import Verif.Spec.Ordering
/-! When blocks delivered out of order still come together: the vocabulary of C39. -/
namespace Verif.Spec
open Verif

/-- `h` is `root`, or the hash of one of the blocks, whose parent hangs together with `root` in the same way. -/
inductive Joined (root : Hash) (bs : List PB) : Hash → Prop
  | root : Joined root bs root
  | step {b : PB} : b ∈ bs → Joined root bs b.parentHash → Joined root bs b.hash

/-- Among the blocks above `h` no two have the same parent. -/
def LineAbove (h : Hash) (bs : List PB) : Prop :=
  ∀ a ∈ bs, ∀ b ∈ bs, Joined h bs a.parentHash → a.parentHash = b.parentHash → a.hash = b.hash

/-- What is asked of the arrival of `b` after the blocks `l`. The root may arrive at any time, and arrives before all others.
A block whose parent hangs together with the root closes a gap for the blocks above it that are waiting. Unless it arrived before,
it is the heaviest of those hanging together with the root, or the waiting blocks above it do not fork. Any other block is at most
`t` lower than the heavier blocks that hang together with the root. -/
def Closes (root : Hash) (t : Int) (l : List PB) (b : PB) : Prop :=
  b.hash = root ∨ root ∈ hashes l ∧
    ((Joined root l b.parentHash ∧
      (b.hash ∈ hashes l ∨ (∀ a ∈ l, Joined root l a.hash → a.weight < b.weight) ∨ LineAbove b.hash l)) ∨
    (¬ Joined root l b.parentHash ∧ ∀ a ∈ l, Joined root l a.hash → b.weight < a.weight → a.number - b.number ≤ t))

/-- Every arrival is of that kind. -/
def ClosesGaps (root : Hash) (t : Int) (bs : List PB) : Prop := ∀ l1 b l2, bs = l1 ++ b :: l2 → Closes root t l1 b

/-- The block is the root, a child of the root, or at least two higher than the root. -/
def OverRoot (W : World) (root : Hash) (b : PB) : Prop :=
  b.hash = root ∨ b.parentHash = root ∨ W.number root < W.number b.parentHash

end Verif.Spec
