import Verif.Model.Go
/-! Directory prefixes of keys, stated without reference to `path.Dir`. Byte 47 is '/', 46 is '.'. -/
namespace Verif.Spec

/-- A path element that is an ordinary name: not empty, not "." or "..", without slash. -/
def Tidy (s : GoStr) : Prop := s ≠ [] ∧ s ≠ [46] ∧ s ≠ [46, 46] ∧ (47 : UInt8) ∉ s

instance (s : GoStr) : Decidable (Tidy s) := inferInstanceAs (Decidable (_ ∧ _))

/-- The directory "s1/s2/…/sn/". -/
def dirs (segs : List GoStr) : GoStr := segs.flatMap (· ++ [47])

/-- The key is made of ordinary directory names followed by a last element without slash (the last element may be anything,
also empty). -/
def TidyKey (k : GoStr) : Prop :=
  ∃ segs last, (∀ s ∈ segs, Tidy s) ∧ (47 : UInt8) ∉ last ∧ k = dirs segs ++ last

/-- `pre` is the key itself or one of the directories it is in. -/
def DirPrefix (pre k : GoStr) : Prop :=
  pre = k ∨ ∃ segs rest, segs ≠ [] ∧ (∀ s ∈ segs, Tidy s) ∧ pre = dirs segs ∧ k = dirs segs ++ rest

/-- The path does not start with a slash. -/
def Relative (p : GoStr) : Prop := p.head? ≠ some 47

instance (p : GoStr) : Decidable (Relative p) := inferInstanceAs (Decidable (_ ≠ _))

end Verif.Spec
