import Verif.Model.Children
/-!
# Model of the ancestor queries of a layer (`ancestors`, nxt/nxt_layer.py; `get_top_node`, nxt/stage.py)
-/
namespace Nxt.Tree
open Dict

/-- nxt_layer.py:237-257, the loop.  `parent` is `parent_path`, `below` the name of `node`.  For each node found: its path, the
node and the name of the node it was reached from.  `none` is a loop which does not end. -/
def climb (nodes : Nodes) : Nat → Str → Str → List (Str × LNode × Str) → Option (List (Str × LNode × Str))
  | 0, _, _, _ => none
  | fuel + 1, parent, below, acc =>
    if parent = Path.WORLD then some acc
    else match get? parent nodes with
      | none => climb nodes fuel (Path.parentPath parent) below acc
      | some n => climb nodes fuel n.parent n.name (acc ++ [(parent, n, below)])

/-- What `ancestors` gives, without the return type. -/
inductive Found where
  | raised
  | endless
  | table (t : List (Str × LNode × Str))

/-- nxt_layer.py:216-257 `ancestors` of a path, `include_implied` false.  A path without a node raises `AttributeError` in line
235. -/
def ancestors (nodes : Nodes) (fuel : Nat) (path : Str) : Found :=
  match get? path nodes with
  | none => .raised
  | some n => match climb nodes fuel n.parent n.name [] with
    | none => .endless
    | some t => .table t

/-- nxt_layer.py:244-245 and 261-262: return type Path. -/
def ancestorPaths : Found → Option (List Str)
  | .table t => some (t.map (·.1))
  | _ => none

/-- nxt_layer.py:248-250 and 265-266: return type NameDict. -/
def ancestorNames : Found → Option (Dict Str Str)
  | .table t => some (t.foldl (fun d e => Dict.set e.2.2 e.1 d) [])
  | _ => none

/-- nxt_layer.py:240-241 and 267-268: return type Boolean. -/
def hasAncestors : Found → Option Bool
  | .table t => some (!t.isEmpty)
  | _ => none

/-- stage.py:3681-3686 `get_top_node`; nodes are given by their paths. -/
def topNode (f : Found) : Option (Option Str) := (ancestorPaths f).map (·.head?)

/-- stage.py:153-160 `next_node`; a stage which has no order or no current node gives `None`. -/
def nextNode (order : List Str) (current : Option Str) : Option Str :=
  match current with
  | none => none
  | some c =>
    if c = [] then none
    else if c ∈ order then
      let i := order.idxOf c + 1
      if i < order.length then order[i]? else none
    else none

/-- stage.py:162-169 `prev_node`. -/
def prevNode (order : List Str) (current : Option Str) : Option Str :=
  match current with
  | none => none
  | some c =>
    if c = [] then none
    else if c ∈ order then
      if 1 < order.idxOf c then order[order.idxOf c - 1]? else none
    else none

end Nxt.Tree
