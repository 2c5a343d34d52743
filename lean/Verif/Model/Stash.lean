import Verif.Model.Dict
/-!
# Model of `stash_node` and `get_stash_data` (nxt/stage.py:381-407)

A node is a class: the list of the attribute tables of its classes, its own first, in the order Python looks
attributes up.  `builtins` is `INTERNAL_ATTRS.BUILTINS` (nxt_node.py:43).  The result `none` stands for the
`AttributeError` of `getattr`.
-/
namespace Nxt.Stash
open Dict

variable {V : Type}

/-- `getattr(node, k)`: the first table with the name. -/
def getattr (n : List (Dict Str V)) (k : Str) : Option V := n.findSome? (get? k)

/-- `dir(node)`: the names of all tables, each once, sorted. -/
def dir (n : List (Dict Str V)) : List Str := (n.flatMap keys).eraseDups.mergeSort strLe

/-- stage.py:389-393, one name. -/
def step (builtins : List Str) (n : List (Dict Str V)) (data : Dict Str V) (k : Str) : Option (Dict Str V) :=
  if k ∈ builtins then some data else (getattr n k).map (fun v => set k v data)

/-- stage.py:381-394 `stash_node`. -/
def stashNode (builtins : List Str) (n : List (Dict Str V)) : Option (Dict Str V) :=
  (dir n).foldlM (step builtins n) []

/-- nxt_layer.py:490-496 `_world_descendants` with return type NodeTable.  The path is compared with `is`;
`isWorld` tells which paths are the object `nxt_path.WORLD`. -/
def worldTable (isWorld : Str → Bool) (nodes : Dict Str (List (Dict Str V))) : List (Str × List (Dict Str V)) :=
  nodes.filter (fun e => !isWorld e.1)

/-- stage.py:396-407 `get_stash_data`. -/
def stashData (builtins : List Str) (isWorld : Str → Bool) (nodes : Dict Str (List (Dict Str V))) :
    Option (Dict Str (Dict Str V)) :=
  (worldTable isWorld nodes).foldlM (fun comp e => (stashNode builtins e.2).map (fun d => set e.1 d comp)) []

end Nxt.Stash
