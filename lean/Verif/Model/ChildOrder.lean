import Verif.Model.Lists
/-!
# Model of editing child orders

`set_node_child_order`, `propagate_child_order`, `get_reverted_child_order` (nxt/stage.py).

Nodes of the composite layer are given by their paths, with a child order and the names of their children.  What
the functions read elsewhere is handed over: the child orders of the node in the layers from the target layer
down, those of the bases of the composite node by arc (`CompArc.get_bases_arc_dict`), and the dirties
(`get_node_dirties`, see `Verif.Model.Dirty`).
-/
namespace Nxt.ChildOrder
open Lists

/-- stage.py:3577-3585, after an order has been taken away: the orders of the reference bases, the strongest first,
and of the instance base. -/
def resetOrder (co : List Str) (refs : List (List Str)) (inst : Option (List Str)) : List Str :=
  let m := refs.foldl listMerger co
  match inst with
  | some i => listMerger m i
  | none => m

/-- stage.py:3587-3596. -/
def mergedOrder (co : List Str) (lower : List (List Str)) (comp : List Str) : List Str :=
  listMerger (lower.foldl listMerger co) comp

/-- stage.py:3574-3596: the order the composite node gets.  `old` is the order of the layer node before, `co`
the one set, `comp` the one of the composite node. -/
def compOrder (old co : List Str) (lower : List (List Str)) (comp : List Str) (refs : List (List Str)) (inst : Option (List Str)) : List Str :=
  if old ≠ [] ∧ co = [] then resetOrder co refs inst else mergedOrder co lower comp

/-- stage.py:3623-3628: the first place where the old order stands in a row gets the new one; `pre` has been passed. -/
def splice (old new : List Str) : List Str → List Str → Option (List Str)
  | _, [] => none
  | pre, x :: rest =>
    if (x :: rest).take old.length = old then some (pre ++ new ++ (x :: rest).drop old.length)
    else splice old new (pre ++ [x]) rest

/-- stage.py:3617-3636, one dependent node: `kids` are the names of its children in order.  The test
`updated_child_order is new_child_order` (line 3629) compares a copy and never holds. -/
def propagateOne (old new kids : List Str) : List Str :=
  if (∀ x ∈ old, x ∈ kids) ∧ old ≠ [] ∧ kids ≠ [] then (splice old new [] kids).getD new
  else if ∃ x ∈ old, x ∈ kids then kids
  else kids ++ new

/-- nxt_layer.py:355-388, `children` with `ordered` by names, for a node which is there. -/
def orderedNames (co kids : List Str) : List Str :=
  if co = [] then kids
  else
    let o := co.flatMap (fun c => kids.filter (· = c))
    o ++ kids.filter (· ∉ o)

/-- The nodes of the composite layer. -/
structure Nodes where
  order : Str → List Str
  kids : Str → List Str

/-- `setattr(node, INTERNAL_ATTRS.CHILD_ORDER, order)`. -/
def setOrder (N : Nodes) (p : Str) (o : List Str) : Nodes := { N with order := fun q => if q = p then o else N.order q }

/-- stage.py:3607-3639 `propagate_child_order`. -/
def propagate (old new : List Str) (dirties : List Str) (N : Nodes) : Nodes :=
  dirties.foldl (fun N d => setOrder N d (propagateOne old new (orderedNames (N.order d) (N.kids d)))) N

/-- stage.py:3565-3605 `set_node_child_order` with a composite layer; the assignment to the layer node is in
`lower`, whose first order is the one set. -/
def setChildOrder (N : Nodes) (path : Str) (old co : List Str) (lower refs : List (List Str)) (inst : Option (List Str)) (dirties : List Str) : Nodes :=
  let new := compOrder old co lower (N.order path) refs inst
  propagate old new dirties (setOrder N path new)

/-- stage.py:3660-3678 `get_reverted_child_order`: `there` tells whether the target layer has a node of that name
below the node, `kids` are the names of its children there. -/
def reverted (comp : List Str) (there : Str → Bool) (kids : List Str) : List Str :=
  kids.foldl (fun acc n => if n ∈ acc then acc else acc ++ [n]) (comp.filter there)

end Nxt.ChildOrder
