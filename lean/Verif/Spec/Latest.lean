import Verif.Model.Types
/-! The latest position of a source. -/
namespace Verif.Spec

/-- `o` is the greatest offset among the messages from source `s`; `none` if there are none. -/
def Latest (ms : List RMsg) (s : GoStr) : Option Int → Prop
  | none => ∀ m ∈ ms, m.source ≠ s
  | some o => (∃ m ∈ ms, m.source = s ∧ m.offset = o) ∧ ∀ m ∈ ms, m.source = s → m.offset ≤ o

end Verif.Spec
