import Verif.Spec.Comp
import Verif.Spec.Path
/-!
# Specification vocabulary: child orders without names of nodes which are gone
-/
namespace Nxt.Spec
open Dict

/-- Every name a layer lists in the child order of a node is the name of a node, of some layer. -/
def NoStale (layers : List Comp.LayerNodes) : Prop :=
  ∀ l ∈ layers, ∀ ns n, Names ns → ns ≠ [] → (render ns, n) ∈ l → ∀ x ∈ listed n,
    Names [x] ∧ stack layers (render (ns ++ [x])) ≠ []

end Nxt.Spec
