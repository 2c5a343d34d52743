import Verif.Model.Arcs
import Verif.Spec.BuildExec
import Verif.Spec.Build
/-!
# Specification: what stands behind a composed node (C152)
-/
namespace Nxt.Spec
open Dict NodeData

/-- The classes behind the node at a path, each in its place: for every layer with the node, strong to weak, its spec (one
made spec when no layer has the node); the parent, unless what the node takes from its source already comes with it; the node
it stands for.  Nothing else, and these are all base classes, in this order. -/
structure FiledArcs (layers : List Comp.LayerNodes) (nodes : Dict Str Nat) (own : Nat → Dict Str Val) (bases : List Nat)
    (ns : List Str) (D : Arcs.ArcDict) : Prop where
  all : bases = D.refs ++ D.parent.toList ++ D.inst.toList
  layered : stack layers (render ns) ≠ [] → D.refs.map own = stack layers (render ns)
  made : stack layers (render ns) = [] → D.refs.length = 1
  parent : (¬ ∃ s, Drawn layers ns s ∧ ns.dropLast <+: s) → ns ≠ [] → D.parent = get? (render ns.dropLast) nodes
  covered : (ns = [] ∨ ∃ s, Drawn layers ns s ∧ ns.dropLast <+: s) → D.parent = none
  inst : ∀ s, Drawn layers ns s → D.inst ≠ none ∧ D.inst = get? (render s) nodes
  plain : (¬ ∃ s, Drawn layers ns s) → D.inst = none
  other : D.other = none

/-- Each node says by the real path of its layer which layer it is from; a layer never saved has none. -/
def SaysLayer (L : List (Option Str × Comp.LayerNodes)) : Prop :=
  ∀ l ∈ L, ∀ p n, (p, n) ∈ l.2 → get? "_source_layer".toList n = some (match l.1 with | some s => .str s | none => .none)

end Nxt.Spec
