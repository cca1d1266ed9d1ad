import Verif.Model.Cat
import Verif.Props.Regexp
/-! # C144: the command-line tool -/
namespace Verif
open Spec

/-- **C144** refuted: whatever broker and topics it is given, and whatever `ResolveConsumer` would say, the tool never starts a consumer: it
panics, since `*` is not an expression (or exits, without a URL). -/
theorem C144_never_refuted {α : Type} (resolve : GoStr → GoStr → List GoStr → List Re → Option α) (url : GoStr) (args : List GoStr) :
    catMain resolve url args = if url = [] then .exit else .panic := by
  unfold catMain catMainWith
  have : mustCompile (str "*") = .error .panic := rfl
  rw [this]

/-- **C144**: with an expression that compiles the tool starts the consumer that is resolved. -/
theorem C144_compiling {α : Type} (resolve : GoStr → GoStr → List GoStr → List Re → Option α) {pattern url topic : GoStr} {rest : List GoStr}
    {re : Re} {c : α} (hp : parseRe pattern = .ok re) (hu : url ≠ []) (hr : resolve url topic (topic :: rest) [re] = some c) :
    catMainWith pattern resolve url (topic :: rest) = .started c [re] := by
  simp [catMainWith, mustCompile, hp, hu, hr]

/-- **C144**: with `.*` it tracks everything. -/
theorem C144_dot_star {α : Type} (resolve : GoStr → GoStr → List GoStr → List Re → Option α) {url topic : GoStr} {rest : List GoStr}
    (hu : url ≠ []) (hr : ∀ u t l res, (resolve u t l res).isSome = true) :
    ∃ c res, catMainWith (str ".*") resolve url (topic :: rest) = .started c res ∧ ∀ k, trackedBy res k = true := by
  obtain ⟨re, h1, h2⟩ := C143_all
  obtain ⟨c, hc⟩ := Option.isSome_iff_exists.mp (hr url topic (topic :: rest) [re])
  exact ⟨c, [re], C144_compiling resolve h1 hu hc, h2⟩

example : catMain (fun _ _ _ _ => some ()) (str "ws://host") [str "topic"] = .panic ∧ str "ws://host" ≠ [] :=
  ⟨rfl, by decide⟩

example : ∃ c res, catMainWith (str ".*") (fun _ _ _ _ => some ()) (str "ws://host") [str "topic"] = .started c res ∧ ∀ k, trackedBy res k = true :=
  C144_dot_star _ (by decide) (fun _ _ _ _ => rfl)

end Verif
