import Verif.Spec.Tree
/-!
# Specification of the ancestors of a node (C134)
-/
namespace Nxt.Spec
open Dict

/-- The proper, not empty prefixes of a list of names, the longest first. -/
def upwards (ns : List Str) : List (List Str) := (List.range' 1 (ns.length - 1)).reverse.map (fun k => ns.take k)

/-- Those which are nodes of the layer. -/
def nodesAbove (nodes : Tree.Nodes) (ns : List Str) : List (List Str) :=
  (upwards ns).filter (fun a => (get? (render a) nodes).isSome)

end Nxt.Spec
