import Verif.Model.Inherit
import Verif.Model.Exec
/-!
# What the execution reads from the composite nodes (nxt/nxt_layer.py)

Ties the classes of `Verif.Model.Inherit` to the node tables of `Verif.Model.Children` and `Verif.Model.Exec`: the
queries read attributes of the composite nodes with `getattr`, so through their bases.  As in `Verif.Model.Inherit`,
there are no proxies: nothing below a node which is instanced.
-/
namespace Nxt.Composite
open Dict NodeData Mro

/-- A name or path; anything else is no text. -/
def textOf : Val → Str
  | .str s => s
  | _ => []

/-- nxt_layer.py:331-365 (parent path, child order), 579-582 (enabled) and 613-623 (execute in): the composite nodes as
these lines read them. -/
def execTable (nodes : Dict Str Nat) (g : Classes) : Tree.Nodes :=
  nodes.map (fun e => (e.1,
    { name := textOf (g.attr e.2 A_NAME)
      parent := textOf (g.attr e.2 A_PARENT)
      childOrder := (names (g.attr e.2 A_CHILD_ORDER)).getD []
      enabled := g.attr e.2 A_ENABLED
      execIn := g.attr e.2 A_EXECUTE_IN }))

/-- nxt_layer.py:489-495: the start point of the node at a path. -/
def startPoint (nodes : Dict Str Nat) (g : Classes) (p : Str) : Val :=
  match get? p nodes with
  | some c => g.attr c A_START
  | none => .none

end Nxt.Composite
