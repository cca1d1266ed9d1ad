import Verif.Spec.Block
/-! Restarting a consumer: what has to hold of a later block's messages. -/
namespace Verif.Spec

/-- `x` is a header of block `h`. -/
def HeaderOf (h : Hash) (x : RMsg) : Prop := blockOf x.key = h ∧ x.key.head? = some BatchType

/-- Block `h` is not more than `rb` ahead of message `m` in the source of `m`: its own messages there are at most `rb` after `m`,
and when a header of `h` arrived, nothing more than `rb` after `m` had been received from there. -/
structure Behind (rb : Int) (h : Hash) (received : List RMsg) (m : RMsg) : Prop where
  own : ∀ x ∈ received, blockOf x.key = h → x.source = m.source → x.offset ≤ m.offset + rb
  before : ∀ l1 x l2, received = l1 ++ x :: l2 → HeaderOf h x → ∀ y ∈ l1, y.source = m.source → y.offset ≤ m.offset + rb

/-- `r` is read by a consumer restarted at the offsets of `pb`'s `Resumption()`, each moved back by `rb`: everything in the log
from there on arrives (in whatever order); sources without a recorded offset are read from their beginning. -/
def RestartReads (rb : Int) (pb : PB) (log r : List RMsg) : Prop :=
  ∀ m ∈ log, (∀ o, resumeAt pb m.source = some o → o ≤ m.offset + rb) → m ∈ r

/-- Every source is read in the order of its offsets. -/
def InOrder (r : List RMsg) : Prop := r.Pairwise (fun x y => x.source = y.source → x.offset < y.offset)

instance (r : List RMsg) : Decidable (InOrder r) := inferInstanceAs (Decidable (List.Pairwise _ r))

end Verif.Spec
