import Verif.Model.Children
import Verif.Model.Lists
/-!
# Model of the edits of a layer: `add_node`, `delete_node`, `parent_nodes`, `set_node_name`,
`add_node_to_comp_layer`, `remove_node_from_comp_layer` (nxt/stage.py)

Node objects are numbers; their attributes are kept in `obj`.  Not modelled here: the child cache
(see `Verif.Model.ChildCache`), the position and collapse data of the top layer when another layer
is edited, the source attributes set by `refresh`, the part of `add_node` and `delete_node` working
on a composite (`do_targeted_comp`).
-/
namespace Nxt.Edit
open Dict

/-- The attributes of a node object used here. -/
structure NodeObj where
  name : Str
  parent : Str
  order : List Str
  deriving DecidableEq, Repr

/-- A layer: nxt_layer.py:127-147.  The values of the positions and of the collapse data are opaque. -/
structure St where
  obj : Nat → NodeObj
  /-- `_nodes_path_as_key` -/
  byPath : Dict Str Nat
  /-- `_nodes_node_as_key` -/
  byNode : Dict Nat Str
  /-- `_node_table` -/
  table : List (List Str × Nat)
  /-- `spec_list` -/
  specs : List Nat
  positions : Dict Str Nat
  collapse : Dict Str Nat

/-- `setattr` on a node object. -/
def upd (obj : Nat → NodeObj) (i : Nat) (f : NodeObj → NodeObj) : Nat → NodeObj :=
  fun j => if j = i then f (obj i) else obj j

/-- nxt_layer.py:178-192 `refresh` and `sort_node_table`. -/
def refresh (st : St) : St :=
  { st with table := Lists.sortMulti (fun e => e.1.length) (st.byPath.map (fun e => (Path.toNamespace e.1, e.2))) }

/-- nxt_layer.py:127-147: a layer without nodes. -/
def empty : St :=
  { obj := fun _ => ⟨[], [], []⟩, byPath := [], byNode := [], table := [], specs := [], positions := [], collapse := [] }

/-- nxt_layer.py:160-176, one node of `_construct_node_specs`; the new object is numbered by its place. -/
def constructStep (st : St) (e : Str × List Str) : St :=
  let i := st.specs.length
  let parent := Path.parentPath e.1
  let name := Path.nodeName e.1
  let path := Path.joinNodePath parent name
  { st with
    obj := upd st.obj i (fun _ => ⟨name, parent, e.2⟩)
    specs := st.specs ++ [i]
    byPath := Dict.set path i st.byPath
    byNode := Dict.set i path st.byNode }

/-- nxt_layer.py:155-176 and 142-147: the nodes of the file (path and child order), then `refresh`. -/
def construct (nodes : Dict Str (List Str)) : St := refresh (nodes.foldl constructStep empty)

/-- stage.py:653-661, the tables of `add_node`: the new object `i`. -/
def addNode (st : St) (i : Nat) (parent name : Str) (order : List Str) : St :=
  let path := Path.joinNodePath parent name
  { st with
    obj := upd st.obj i (fun _ => ⟨name, parent, order⟩)
    specs := st.specs ++ [i]
    byPath := Dict.set path i st.byPath
    byNode := Dict.set i path st.byNode
    table := st.table ++ [(Path.toNamespace path, i)] }

/-- stage.py:544-576 `add_node_to_comp_layer` for a `CompNode` with `ns=None`. -/
def addComp (st : St) (path : Str) (i : Nat) (addOrder : Bool) : St :=
  let st := { st with
    table := st.table ++ [(Path.toNamespace path, i)]
    byPath := Dict.set path i st.byPath
    byNode := Dict.set i path st.byNode }
  match (if addOrder then get? (st.obj i).parent st.byPath else none) with
  | none => st
  | some p =>
    let name := (st.obj i).name
    if name ∈ (st.obj p).order then st
    else { st with obj := upd st.obj p (fun n => { n with order := Lists.listMerger n.order [name] }) }

/-- `child_order.remove(name)` in place, if it is there. -/
def dropChild (obj : Nat → NodeObj) (p : Nat) (name : Str) : Nat → NodeObj :=
  upd obj p (fun n => { n with order := n.order.erase name })

/-- stage.py:958-986 `remove_node_from_comp_layer` for a `CompNode` with `ns=None`; `none` is the
`ValueError` or `KeyError` of an object which is not in the tables (the layer is then broken). -/
def removeComp (st : St) (path : Str) (i : Nat) (rmOrder rmData : Bool) : Option St :=
  if (Path.toNamespace path, i) ∈ st.table ∧ (get? path st.byPath).isSome ∧ (get? i st.byNode).isSome then
    let st := { st with
      table := st.table.erase (Path.toNamespace path, i)
      byPath := Dict.erase path st.byPath
      byNode := Dict.erase i st.byNode }
    let st := match (if rmOrder then get? (st.obj i).parent st.byPath else none) with
      | none => st
      | some p => { st with obj := dropChild st.obj p (st.obj i).name }
    some (if rmData then { st with collapse := Dict.erase path st.collapse } else st)
  else none

/-- What the tree queries used here see of a layer; they do not ask for the child order. -/
def tree (st : St) : Tree.Nodes :=
  st.byPath.map (fun e => (e.1, ⟨(st.obj e.2).name, (st.obj e.2).parent, [], .none, .none⟩))

/-- Outcome of an edit: done, or an exception with the state it leaves behind. -/
inductive Res where
  | ok (st : St)
  | raised (st : St)

/-- stage.py:826-848, one path of the loop of `delete_node`.  A path without a node makes
`spec_list.remove(None)` raise. -/
def deleteStep (popOrder rmData : Bool) (acc : Res) (path : Str) : Res :=
  match acc with
  | .raised st => .raised st
  | .ok st =>
    match get? path st.byPath with
    | none => .raised st
    | some i =>
      if i ∉ st.specs then .raised st
      else
        let st := { st with specs := st.specs.erase i, byPath := Dict.erase path st.byPath }
        if (get? i st.byNode).isNone then .raised st
        else
          let st := { st with byNode := Dict.erase i st.byNode }
          let st := match get? (st.obj i).parent st.byPath with
            | none => st
            | some p => if popOrder then { st with obj := dropChild st.obj p (st.obj i).name } else st
          .ok (if rmData then { st with positions := Dict.erase path st.positions, collapse := Dict.erase path st.collapse }
            else st)

/-- stage.py:813-849, `delete_node` with `comp_layer=None`; `desc` are the descendants found by
`layer.descendants(node_path, include_implied=True)`. -/
def deleteNode (desc : List Str) (withDesc rmData : Bool) (st : St) (i : Nat) : Res :=
  let path := Path.joinNodePath (st.obj i).parent (st.obj i).name
  let paths := if withDesc then path :: desc else [path]
  match paths.foldl (deleteStep (withDesc || desc.isEmpty) rmData) (.ok st) with
  | .ok st => .ok (refresh st)
  | r => r

/-- stage.py:1144-1158 with nxt_layer.py:216-265: the first ancestor which is a node, and the name
of the path below it on the way to the old path. -/
def orphanEntry (st : St) (i : Nat) (old : Str) : Option (Nat × Str) :=
  match (Path.ancestorLoop (st.obj i).parent).find? (fun q => (get? q st.byPath).isSome) with
  | none => none
  | some q =>
    match get? q st.byPath with
    | none => none
    | some a =>
      match Py.partition? (((get? a st.byNode).getD []) ++ ['/']) old with
      | none => none
      | some (_, rest) => some (a, Path.nodeName (Path.rootPath ('/' :: rest)))

/-- stage.py:1137-1158: the entry in the child order of the old parent goes. -/
def unorder (st : St) (i : Nat) (old : Str) : St :=
  if (st.obj i).parent = Path.WORLD then st
  else match get? (st.obj i).parent st.byPath with
    | some p => { st with obj := dropChild st.obj p (st.obj i).name }
    | none =>
      match orphanEntry st i old with
      | none => st
      | some (a, child) => { st with obj := dropChild st.obj a child }

/-- `d[new] = d.pop(old)`, if the old key is there. -/
def moveKey {V : Type} (old new : Str) (d : Dict Str V) : Dict Str V :=
  match get? old d with
  | none => d
  | some v => Dict.set new v (Dict.erase old d)

/-- stage.py:1181-1199, one node of the loop over all nodes.  The test `path is new_path` is read as
equality: the key set in line 1175 is the object `new_path`, unless the path was in use before. -/
def moveStep (old new : Str) (st : St) (e : Str × Nat) : St :=
  if e.1 = new then st
  else if Path.isAncestor e.1 old then
    let up := Path.replaceAncestor e.1 old new
    { st with
      byPath := moveKey e.1 up st.byPath
      byNode := Dict.set e.2 up st.byNode
      obj := upd st.obj e.2 (fun n => { n with parent := Path.replaceAncestor n.parent old new }) }
  else st

/-- stage.py:1134-1203, one node of `parent_nodes`; `newName` is the name it gets (line 1161 or 1166).
`none` is the `KeyError` of an object which is not in the tables. -/
def parentOne (st : St) (i : Nat) (parent newName : Str) : Option St :=
  match get? i st.byNode with
  | none => none
  | some old =>
    match get? old st.byPath with
    | none => none
    | some v =>
      let st := unorder st i old
      let st := { st with obj := upd st.obj i (fun n => { n with name := newName }) }
      let st := match get? parent st.byPath with
        | none => st
        | some p =>
          if newName ∈ (st.obj p).order then st
          else { st with obj := upd st.obj p (fun n => { n with order := n.order ++ [newName] }) }
      let new := Path.joinNodePath parent newName
      let st := { st with
        obj := upd st.obj i (fun n => { n with parent := parent })
        byPath := Dict.set new v (Dict.erase old st.byPath)
        byNode := Dict.set i new st.byNode }
      let st := st.byPath.foldl (moveStep old new) st
      some { st with collapse := moveKey old new st.collapse }

/-- stage.py:1211-1226: the paths did change, to what name and parent path tell. -/
def parentedOk (st : St) (old : Str) (i : Nat) : Bool :=
  let expected := Path.joinNodePath (st.obj i).parent (st.obj i).name
  old != expected && get? i st.byNode == some expected

/-- stage.py:1134-1203, the loop over the nodes, each with its new name; with the old paths. -/
def parentLoop (parent : Str) : List (Nat × Str) → St → List Str → Option (St × List Str)
  | [], st, olds => some (st, olds)
  | (i, newName) :: rest, st, olds =>
    match parentOne st i parent newName with
    | none => none
    | some st' => parentLoop parent rest st' (olds ++ [(get? i st.byNode).getD []])

/-- stage.py:1101-1227 `parent_nodes`; the returned dict is left out.  With `check_names` the new
names come from `get_unique_node_name` (`Names.uniqueNodeName`), else they are the old names. -/
def parentNodes (st : St) (nodes : List (Nat × Str)) (parent : Str) : Res :=
  if nodes = [] then .ok st
  else match parentLoop parent nodes st [] with
    | none => .raised st
    | some (st, olds) =>
      let st := refresh st
      if ((olds.zip nodes).all (fun e => parentedOk st e.1 e.2.1)) then .ok st else .raised st

/-- stage.py:1320-1325: the real children of a path (paths which are no nodes are passed over). -/
def realChildren (st : St) (path : Str) : List Nat :=
  (Tree.childPaths (tree st) (Tree.scan (fun a b => a == b) (tree st) path) path true).filterMap
    (fun p => get? p st.byPath)

/-- stage.py:1282-1362 `set_node_name`, from line 1316; `name` is the name after line 1331. -/
def setNodeName (st : St) (i : Nat) (name : Str) : Res :=
  let n := st.obj i
  match get? i st.byNode with
  | none => .raised st
  | some old =>
    let children := realChildren st old
    let st := { st with obj := upd st.obj i (fun n => { n with name := name }) }
    let new := Path.joinNodePath n.parent name
    let st := match get? n.parent st.byPath with
      | none => st
      | some p => { st with obj := upd st.obj p (fun m =>
          { m with order := m.order.map (fun x => if x = n.name then name else x) }) }
    let st := { st with
      positions := moveKey old new st.positions
      collapse := moveKey old new st.collapse
      byPath := moveKey old new st.byPath
      byNode := Dict.set i new st.byNode }
    match parentNodes st (children.map (fun c => (c, (st.obj c).name))) new with
    | .ok st => .ok (refresh st)
    | r => r

end Nxt.Edit
