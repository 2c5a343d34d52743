import Verif.Props.LayerData
import Verif.Spec.Comp
import Verif.Spec.Inherit
/-!
# Specification vocabulary: layers in the form the editor keeps them
-/
namespace Nxt.Spec
open Dict NodeData

/-- Layers as the editor keeps them: well formed nodes with every internal attribute, each but a root together with its
parent and in its child order; the world no instance and not switched; enabled states which are not empty lists. -/
structure Tidy (layers : List Comp.LayerNodes) : Prop where
  spec : SpecNodes layers
  good : ∀ T ∈ layers, ∃ order, Props.GoodNodes T order
  attrs : ∀ T ∈ layers, ∀ p n, (p, n) ∈ T → (get? "_execute_in".toList n).isSome ∧ (get? "_start_point".toList n).isSome
  closed : ∀ T ∈ layers, ∀ ns x, Names (ns ++ [x]) → ns ≠ [] → render (ns ++ [x]) ∈ Dict.keys T → render ns ∈ Dict.keys T
  world : ∀ n ∈ stack layers ['/'], (getAttr n "_instance".toList).hasOpinion = false ∧
    (getAttr n "_enabled".toList).hasOpinion = false ∧ (listed n).Nodup
  enabled : ∀ T ∈ layers, ∀ p n, (p, n) ∈ T → getAttr n "_enabled".toList ≠ .list []

end Nxt.Spec
