import Verif.Model.Dict
import Verif.Model.Value
import Verif.Model.Path
/-!
# Model of the tree queries of a layer (`children`, `descendants`, nxt/nxt_layer.py)

A layer is the dict of its nodes by path, in insertion order.  Node objects are identified with their
paths.  A query works on the real children `rc` of the path, which come either from the scan of lines
331-340 (`scan`) or from the cache (see `Verif.Model.ChildCache`).
-/
namespace Nxt.Tree
open Dict

/-- What the queries read from a node. -/
structure LNode where
  name : Str
  parent : Str
  childOrder : List Str
  enabled : Val
  execIn : Val

/-- nxt_layer.py:143-144 `_nodes_path_as_key`. -/
abbrev Nodes := Dict Str LNode

/-- nxt_layer.py:331-340: the real children found by scanning; `same` is `is` on strings. -/
def scan (same : Str → Str → Bool) (nodes : Nodes) (p : Str) : Nodes := nodes.filter (fun e => same e.2.parent p)

/-- nxt_layer.py:344-348, one node of the scan for implied children. -/
def impliedStep (p : Str) (acc : List Str) (path : Str) : List Str :=
  if Path.isAncestor path p then
    let t := Path.trimToDepth path (Path.pathDepth p + 1)
    if t ∈ acc then acc else acc ++ [t]
  else acc

/-- nxt_layer.py:331-348, the implied children. -/
def implied (nodes : Nodes) (p : Str) : List Str := (keys nodes).foldl (impliedStep p) []

/-- nxt_layer.py:352-355 and 384-386: adding the items which are not there yet. -/
def addMissing (acc more : List Str) : List Str :=
  more.foldl (fun acc x => if x ∈ acc then acc else acc ++ [x]) acc

/-- nxt_layer.py:267-409 `children` with return type Path, not ordered. -/
def childPaths (nodes rc : Nodes) (p : Str) (incl : Bool) : List Str :=
  if p = [] then [] else if incl then addMissing (keys rc) (implied nodes p) else keys rc

/-- nxt_layer.py:356-357: return type Boolean. -/
def hasChildren (nodes rc : Nodes) (p : Str) (incl : Bool) : Bool := !(childPaths nodes rc p incl).isEmpty

/-- nxt_layer.py:358-365: the child order used; `none` is the `AttributeError` of a missing node. -/
def orderOf (nodes : Nodes) (p : Str) (incl : Bool) : Option (List Str) :=
  match get? p nodes with
  | some n => some n.childOrder
  | none => if incl then some [] else none

/-- nxt_layer.py:366-390 for return type Path. -/
def orderPaths (co ps : List Str) : List Str :=
  if co = [] then ps else addMissing (co.flatMap (fun c => ps.filter (fun p => Path.nodeName p = c))) ps

/-- nxt_layer.py:267-409 `children` with return type Path, ordered. -/
def orderedPaths (nodes rc : Nodes) (p : Str) (incl : Bool) : Option (List Str) :=
  if p = [] then some [] else (orderOf nodes p incl).map (fun co => orderPaths co (childPaths nodes rc p incl))

/-- nxt_layer.py:366-390 for return type Node; names are compared by identity. -/
def orderNodes (same : Str → Str → Bool) (co : List Str) (rc : Nodes) : Nodes :=
  if co = [] then rc
  else rc.foldl (fun acc e => if e.1 ∈ keys acc then acc else acc ++ [e])
    (co.flatMap (fun c => rc.filter (fun e => same e.2.name c)))

/-- nxt_layer.py:366-395 for return type NodeTable.  Line 393 looks for the path among the items
`[path, node]`, where it never is. -/
def orderTable (co : List Str) (rc : Nodes) : Nodes :=
  if co = [] then rc else co.flatMap (fun c => rc.filter (fun e => Path.nodeName e.1 = c)) ++ rc

/-- nxt_layer.py:441-453, the `while` loop of `descendants` for return type Path. -/
def descLoop (ch : Str → List Str) : Nat → List Str → List Str → Option (List Str)
  | 0, _, _ => none
  | fuel + 1, desc, more =>
    if more = [] then some desc else descLoop ch fuel (desc ++ more.flatMap ch) (more.flatMap ch)

/-- nxt_layer.py:466-484 `_world_descendants` for return type Path; with implied paths it is a set, given
here as a list of its members. -/
def worldDescendants (nodes : Nodes) (incl : Bool) : List Str :=
  let paths := (keys nodes).erase Path.WORLD
  if incl then addMissing [] ((paths.flatMap Path.allAncestorPaths).filter (· ≠ Path.WORLD) ++ paths) else paths

/-- nxt_layer.py:423-454 `descendants` with return type Path, not ordered; `kids` are the real children. -/
def descendants (nodes : Nodes) (kids : Str → Nodes) (incl : Bool) (fuel : Nat) (p : Str) : Option (List Str) :=
  if p = Path.WORLD then some (worldDescendants nodes incl)
  else descLoop (fun q => childPaths nodes (kids q) q incl) fuel (childPaths nodes (kids p) p incl)
    (childPaths nodes (kids p) p incl)

/-- nxt_layer.py:456-464 `_ordered_descendants`, at most `fuel` nested calls; `none` also when a call to
`children` fails. -/
def orderedDesc (ch : Str → Option (List Str)) : Nat → Str → Option (List Str)
  | 0, _ => none
  | fuel + 1, p =>
    match ch p with
    | none => none
    | some cs => (cs.mapM (fun c => (orderedDesc ch fuel c).map (fun d => c :: d))).map List.flatten

/-- nxt_layer.py:423-438 `descendants` with return type Path, ordered; the world is refused. -/
def descendantsOrdered (nodes : Nodes) (kids : Str → Nodes) (incl : Bool) (fuel : Nat) (p : Str) :
    Option (List Str) :=
  if p = Path.WORLD then none else orderedDesc (fun q => orderedPaths nodes (kids q) q incl) fuel p

end Nxt.Tree
