import Verif.Model.Increment
/-!
# Model of edits of specs of a composed stage: attributes changed, nodes deleted

`delete_node` with a composite layer, and the functions which change user attributes of a spec (nxt/stage.py), as changes
of the classes the composite layer stands on.

Modelled like `Verif.Model.Increment` for graphs in which no node has an instance path: the dirty map is empty, there are
no proxies, so `ripple_delete` takes the node away and nothing else, and `propagate_child_order` reaches nobody.  Left out:
the child order of the parent (see C69 for layers), layer data (positions, collapse).

Python keeps a class as long as something refers to it.  A composite node which is taken away and is not a base of
another class is of no more use; here its class loses its bases and its table then.
-/
namespace Nxt.Retract
open Dict NodeData Mro Increment

/-- The spec of the layer with index `i` among the bases of the composite node `c`. -/
def specAt (S : St) (i c : Nat) : Option Nat :=
  (S.g.bases c).find? (fun b => !isComp S b && (S.layer b == some i))

/-- A function of an attribute of a spec, such as `add_node_attr`, `delete_node_attr`, `rename_node_attr`,
`node_setattr_data` (stage.py:1175-1280, 1406-1488, see `Verif.Model.Attrs`), called with the spec of layer `i` at the
path: `setattr` and `delattr` change the table of its class; `none` is an exception. -/
def retable (S : St) (i : Nat) (path : Str) (f : Dict Str Val → Option (Dict Str Val)) : Option St :=
  (get? path S.nodes).bind (fun c => (specAt S i c).bind (fun s =>
    (f (S.g.own s)).map (fun n => { S with g := setOwn S.g s n })))

/-- stage.py:865-871: the bases before the first composite node which come from other layers. -/
def otherSpecs (S : St) (i c : Nat) : List Nat :=
  ((S.g.bases c).takeWhile (fun b => !isComp S b)).filter (fun b => S.layer b != some i)

/-- stage.py:962-1099 without dirty nodes: the composite node is taken out of the tables of the composite layer. -/
def takeAway (S : St) (path : Str) (c : Nat) : St :=
  { S with
    nodes := erase path S.nodes
    g := if (List.range S.g.size).any (fun d => (S.g.bases d).contains c) then S.g
         else { S.g with bases := fun d => if d = c then [0] else S.g.bases d
                         own := fun d => if d = c then [] else S.g.own d } }

/-- stage.py:893-908 and 951-955: the composite node stays. -/
def withoutSpec (is : Str → Str → Bool) (S : St) (s c : Nat) : Option St :=
  let n := Targeted.removeSpec (env is S c) false s (Comp.childOrder [(A_CHILD_ORDER, S.g.attr c A_CHILD_ORDER)]) ⟨S.g.own c, S.g.bases c⟩
  (S.g.setBases c n.bases).map (fun g => { S with g := setOwn g c n.own })

/-- stage.py:789-956 `delete_node` of the spec of layer `i` at the path, with a composite layer and without its
descendants. -/
def remove (is : Str → Str → Bool) (S : St) (i : Nat) (path : Str) : Option St :=
  (get? path S.nodes).bind (fun c => (specAt S i c).bind (fun s =>
    if otherSpecs S i c = [] then some (takeAway S path c) else withoutSpec is S s c))

/-- The calls: `add_node`, a function of attributes, `delete_node`. -/
inductive Edit where
  | add (c : Call)
  | retable (i : Nat) (path : Str) (f : Dict Str Val → Option (Dict Str Val))
  | remove (i : Nat) (path : Str)

/-- One call. -/
def edit (is : Str → Str → Bool) (S : St) : Edit → Option St
  | .add c => Increment.add is S c.layer c.par c.name c.table
  | .retable i path f => Retract.retable S i path f
  | .remove i path => Retract.remove is S i path

/-- Several calls, one after the other. -/
def edits (is : Str → Str → Bool) (S : St) (es : List Edit) : Option St := es.foldlM (edit is) S

end Nxt.Retract
