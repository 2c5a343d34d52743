import Verif.Spec.Inherit
/-!
# Specification vocabulary for compositions of the same nodes in another order
-/
namespace Nxt.Spec
open Dict

/-- The same layers, each with its nodes in another order. -/
inductive Reordered : List Comp.LayerNodes → List Comp.LayerNodes → Prop
  | nil : Reordered [] []
  | cons {l l' : Comp.LayerNodes} {ls ls' : List Comp.LayerNodes} : l.Perm l' → Reordered ls ls' →
      Reordered (l :: ls) (l' :: ls')

/-- Layers which say the same about every path: there are equally many opinions, in the same order of strength. -/
def SameOpinions (a b : List Comp.LayerNodes) : Prop := ∀ p, stack a p = stack b p

end Nxt.Spec
