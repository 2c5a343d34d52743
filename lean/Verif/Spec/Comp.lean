import Verif.Model.Comp
/-!
# Specification of composition: the strongest opinion wins
-/
namespace Nxt.Spec
open Dict NodeData Comp

/-- The nodes at a path, strongest layer first. -/
def stack (layers : List LayerNodes) (path : Str) : List (Dict Str Val) := layers.filterMap (get? path)

/-- The first node of a stack with an opinion on an attribute. -/
def strongest (nodes : List (Dict Str Val)) (a : Str) : Option (Dict Str Val) :=
  nodes.find? (fun n => (getAttr n a).hasOpinion)

/-- The layer a node comes from. -/
def sourceOf (n : Dict Str Val) : Option Str :=
  match getAttr n "_source_layer".toList with
  | .str s => some s
  | _ => none

/-- The names listed by the child order of a node. -/
def listed (n : Dict Str Val) : List Str :=
  match getAttr n "_child_order".toList with
  | .list l => (l.mapM (fun v : Val => match v with | .str s => some s | _ => none)).getD []
  | _ => []

end Nxt.Spec
