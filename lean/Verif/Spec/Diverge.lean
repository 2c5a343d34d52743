import Verif.Spec.Comp
import Verif.Spec.Path
/-!
# Specification vocabulary for diverging instances
-/
namespace Nxt.Spec
open Dict NodeData

/-- A layer has another instance path for a namespace than the composite node, which has one. -/
def Departs (comp : Dict Str Str) (layers : List Comp.LayerNodes) (q : List Str) : Prop :=
  ∃ i, get? (render q) comp = some i ∧ i ≠ [] ∧
    ∃ l ∈ layers, ∃ n, get? (render q) l = some n ∧ ∃ j, getAttr n "_instance".toList = .str j ∧ j ≠ i

/-- The instance path the layers give for a namespace: the strongest opinion. -/
def lowerInstance (layers : List Comp.LayerNodes) (q : List Str) : Option Val :=
  (strongest (stack layers (render q)) "_instance".toList).map (fun n => getAttr n "_instance".toList)

end Nxt.Spec
