import Verif.Model.Duplicate
/-!
# Model of `add_node` with the key `children` in the node data (nxt/stage.py), without a composite

The layer and what is around it are those of `Verif.Model.Duplicate`.  Node data with its `children` is a tree; `data`
is the rest of it.  Writing the name used back into the data of the caller (stage.py:647) is not modelled, nor are the
dirty paths.
-/
namespace Nxt.AddTree
open Dict NodeData Duplicate

/-- Node data: `data.get('name')`, the other keys, and `data.get('children', [])`. -/
inductive NodeTree where
  | node (name : Option Str) (data : Dict Str Val) (children : List NodeTree)

/-- stage.py:640-647: the name of a new node.  Without `fix_names` a missing name raises in `create_spec_node`. -/
def nameFor (e : Env) (fix : Bool) (T : Nodes) (parent : Str) (name : Option Str) : Option Str :=
  if fix then
    match Names.uniqueNodeName e.cc (e.comp T) parent name e.rounds with
    | .ok r => some r
    | _ => none
  else name

mutual

/-- stage.py:639-683 `add_node`: the nodes of the layer and the paths of the nodes reported.  `none` is an exception. -/
def addTree (e : Env) (fix : Bool) (T : Nodes) (parent : Str) : NodeTree → Option (Nodes × List Str)
  | .node name data children =>
    match nameFor e fix T parent name with
    | none => none
    | some name =>
      match addNode e T parent name data with
      | none => none
      | some T' =>
        match addTrees e fix T' (Path.joinNodePath parent name) children with
        | none => none
        | some (T'', made) => some (T'', Path.joinNodePath parent name :: made)

/-- stage.py:670-681, the loop over the children. -/
def addTrees (e : Env) (fix : Bool) (T : Nodes) (parent : Str) : List NodeTree → Option (Nodes × List Str)
  | [] => some (T, [])
  | t :: ts =>
    match addTree e fix T parent t with
    | none => none
    | some (T', made) =>
      match addTrees e fix T' parent ts with
      | none => none
      | some (T'', more) => some (T'', made ++ more)

end

end Nxt.AddTree
