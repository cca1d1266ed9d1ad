import Verif.Spec.Ordering
/-! A consumer that is started again from a stored block: what arrives is the chain on top of that block, and older blocks. -/
namespace Verif.Spec

/-- The weights grow along the list, from `w`. -/
def Rising : Nat → List PB → Prop
  | _, [] => True
  | w, b :: bs => w < b.weight ∧ Rising b.weight bs

/-- The block `b` has the hash, the parent and the weight of `x`. -/
structure Same (x b : PB) : Prop where
  hash : x.hash = b.hash
  parent : x.parentHash = b.parentHash
  weight : x.weight = b.weight

/-- The block is older than the stored block `root` of weight `w`: it is no block of the chain, its parent is neither the stored block nor a block of the
chain, and it is not heavier than the stored block. (The stored block itself is such a block, and so are its ancestors and abandoned forks.) -/
structure Older (root : Hash) (w : Nat) (chain : List PB) (b : PB) : Prop where
  hash : b.hash ∉ hashes chain
  parent : b.parentHash ∉ root :: hashes chain
  weight : b.weight ≤ w

end Verif.Spec
