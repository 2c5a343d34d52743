import Verif.Model.Arcs
/-!
# Model of finding the instances of a node (nxt/stage.py:3475-3487)
-/
namespace Nxt.Targets
open Dict NodeData Mro

/-- stage.py:3477-3486, the loop over the nodes; `call` is the recursive call.  Nodes are identified with their paths;
`inst` gives the instance path of a node (`none` when there is no such attribute), `spec` its spec. -/
def loop {β : Type} (inst : Str → Option Str) (spec : Str → β) (call : Str → List β → Option (List β)) (src : Str) :
    List Str → List β → Option (List β)
  | [], acc => some acc
  | p :: ps, acc =>
    if inst p = some src then (call p (acc ++ [spec p])).bind (loop inst spec call src ps) else loop inst spec call src ps acc

/-- stage.py:3475-3487 `get_instance_targets` over the paths of the descendants of the composite layer, at most `fuel`
nested calls.  The world may be among them: nxt_layer.py:492 leaves it out by identity. -/
def instanceTargets {β : Type} (nodes : List Str) (inst : Str → Option Str) (spec : Str → β) :
    Nat → Str → List β → Option (List β)
  | 0, _, _ => none
  | fuel + 1, src, acc => loop inst spec (instanceTargets nodes inst spec fuel) src nodes acc

/-- stage.py:3475-3487 on the classes of a composite layer; a node's class has its spec as its first base class
(`get_node_spec`, at most two tests of its loop). -/
def targetsOf (nodes : Dict Str Nat) (g : Classes) (paths : List Str) (fuel : Nat) (src : Str) : Option (List (Option Nat)) :=
  instanceTargets paths (Inherit.instPath nodes g)
    (fun p => (get? p nodes).bind (Arcs.nodeSpec (Arcs.isSpec nodes) g.bases 2)) fuel src []

end Nxt.Targets
