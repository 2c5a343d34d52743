import Verif.Model.Reinstance
import Verif.Spec.Inherit
/-!
# Specification: the bases of a composed node
-/
namespace Nxt.Spec
open Dict

/-- The namespace of the nearest node above. -/
def nearestNs (nodes : Dict Str Nat) (ns : List Str) : Option (List Str) :=
  if ns = [] then none else (lineage ns.dropLast).find? (fun q => (get? (render q) nodes).isSome)

/-- The nodes a node takes from, in this order: the nearest above - unless it is the source of the instance, or lies
above it -, and the source of the instance. -/
def linkedTo (nodes : Dict Str Nat) (ns : List Str) : Option (List Str) → List (List Str)
  | none => (nearestNs nodes ns).toList
  | some src => (nearestNs nodes ns).toList.filter (fun q => !q.isPrefixOf src) ++ [src]

/-- The bases of the nodes: the specs, and the nodes linked to; `inst` gives the instance sources. -/
def Stands (g : Mro.Classes) (nodes : Dict Str Nat) (specs : Nat → List Nat) (inst : Nat → Option Nat) : Prop :=
  ∀ ns c, Names ns → (render ns, c) ∈ nodes →
    (inst c = none → g.bases c = specs c ++ (linkedTo nodes ns none).filterMap (fun q => get? (render q) nodes)) ∧
    ∀ src b, Names src → (render src, b) ∈ nodes → inst c = some b →
      g.bases c = specs c ++ (linkedTo nodes ns (some src)).filterMap (fun q => get? (render q) nodes)

end Nxt.Spec
