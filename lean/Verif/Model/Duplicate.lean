import Verif.Model.LayerData
import Verif.Model.Names
/-!
# Model of `add_node_hierarchy` and `duplicate_node` (nxt/stage.py), without a composite

A layer is the dict of its nodes by path, each node its attribute table (see `Verif.Model.NodeData` and
`Verif.Model.LayerData`).  Names are made unique against the composition of all layers, which is built
anew for every node added (stage.py:452-453): `comp` gives the node paths of that composition for the nodes
of the layer.  The children of a path are found by the scan of nxt_layer.py:331-340, where two texts are
compared by identity; here they are compared by value (see C46 for the difference).

Not modelled: the node table and the node to path table (see `Verif.Model.Edit`), the dirty nodes, the
messages, the key `children` of node data, which `get_node_as_dict` never writes (see `Verif.Model.AddTree`).
-/
namespace Nxt.Duplicate
open Dict NodeData LayerData

/-- The nodes of a layer. -/
abbrev Nodes := Dict Str (Dict Str Val)

/-- What is around the layer. -/
structure Env where
  /-- The character classes of names. -/
  cc : Names.CharClass
  /-- The node paths of the composition built from the nodes of this layer. -/
  comp : Nodes → List Str
  /-- `dir(type('NodeSpec', (object,), {}))` -/
  builtins : List Str
  /-- `layer.real_path` -/
  real : Option Str
  /-- Bound for the rounds of the search for a name. -/
  rounds : Nat

/-- An attribute which is a text; the empty text for any other value. -/
def textAttr (n : Dict Str Val) (a : Str) : Str :=
  match getAttr n a with
  | .str s => s
  | _ => []

/-- stage.py:646-661, the part of `add_node` after the name is known: the node is made from its data and
put into the layer.  `none` is an exception of `create_spec_node`. -/
def addNode (e : Env) (T : Nodes) (parent name : Str) (data : Dict Str Val) : Option Nodes :=
  match createSpecNode (set "name".toList (.str name) data) e.real parent false with
  | none => none
  | some n => some (set (Path.joinNodePath parent name) n (linkParent T parent name))

/-- stage.py:640-645 with `fix_names`: the name used; `none` when the search raises or goes on. -/
def freeName (e : Env) (T : Nodes) (parent name : Str) : Option Str :=
  match Names.uniqueNodeName e.cc (e.comp T) parent (some name) e.rounds with
  | .ok r => some r
  | _ => none

/-- stage.py:520-539, one name of the loop: the nodes, the path of the parent, the paths of the nodes made
as they are reported, and the names so far. -/
def hierarchyStep (e : Env) (acc : Option (Nodes × Str × List Str × List Str)) (name : Str) :
    Option (Nodes × Str × List Str × List Str) :=
  match acc with
  | none => none
  | some (T, parent, made, seen) =>
    let seen := seen ++ [name]
    let path := Path.fromNamespace seen
    if (get? path T).isSome then some (T, path, made, seen)
    else
      match addNode e T parent name [] with
      | none => none
      | some T' => some (T', Path.joinNodePath parent name, made ++ [path], seen)

/-- stage.py:512-541 `add_node_hierarchy`: the nodes and the paths reported.  The parent given is used for
the first node only when it has to be made; no parent is the world. -/
def addHierarchy (e : Env) (T : Nodes) (parent : Option Str) (names : List Str) : Option (Nodes × List Str) :=
  match names.foldl (hierarchyStep e) (some (T, parent.getD Path.WORLD, [], [])) with
  | none => none
  | some (T', _, made, _) => some (T', made)

/-- stage.py:758-761 and 770-777: a copy of the node `n` below a parent, with the path it has got. -/
def copyNode (e : Env) (T : Nodes) (parent : Str) (n : Dict Str Val) : Option (Nodes × Str) :=
  match freeName e T parent (textAttr n A_NAME) with
  | none => none
  | some name =>
    match addNode e T parent name (saveNode e.builtins n) with
    | none => none
    | some T' => some (T', Path.joinNodePath parent name)

/-- nxt_layer.py:331-340: the children of a path. -/
def childNodes (T : Nodes) (p : Str) : List (Str × Dict Str Val) :=
  T.filter (fun en => decide (textAttr en.2 A_PARENT = p))

/-- stage.py:769-780, one child of the loop of `dupe_descendants`; `rec` is the call for its own children. -/
def dupeStep (e : Env) (parent : Str) (rec : Nodes → Str → Str → Option (Nodes × List Str))
    (acc : Option (Nodes × List Str)) (c : Str × Dict Str Val) : Option (Nodes × List Str) :=
  match acc with
  | none => none
  | some (T, made) =>
    match copyNode e T parent c.2 with
    | none => none
    | some (T, new) =>
      match rec T new c.1 with
      | none => none
      | some (T, more) => some (T, made ++ [new] ++ more)

/-- stage.py:764-782 `dupe_descendants`, at most `fuel` levels deep: the nodes and the paths made. -/
def dupe (e : Env) : Nat → Nodes → Str → Str → Option (Nodes × List Str)
  | 0, _, _, _ => none
  | fuel + 1, T, parent, ref =>
    (childNodes T ref).foldl (dupeStep e parent (dupe e fuel)) (some (T, []))

/-- stage.py:736-756: the parent path of the copy, the nodes with the missing parents made, and the paths
of those.  A parent which is there although its parents are not is only looked up. -/
def dupeParent (e : Env) (T : Nodes) (n : Dict Str Val) : Option (Nodes × Str × List Str) :=
  let pp := textAttr n A_PARENT
  let pp := if pp = [] then Path.WORLD else pp
  if pp = Path.WORLD then some (T, pp, [])
  else if (get? pp T).isSome then some (T, pp, [])
  else
    match addHierarchy e T none (Path.toNamespace pp) with
    | none => none
    | some (T', made) => some (T', pp, made)

/-- stage.py:720-788 `duplicate_node` for an existing node `n`; `own` is its path when it is a node of this
layer (`layer.get_node_path`).  Without a path the children found are none (nxt_layer.py:277-280).  A parent
path which is empty is that of the world, whose descendants are refused. -/
def duplicate (e : Env) (fuel : Nat) (T : Nodes) (n : Dict Str Val) (own : Option Str) (descendants : Bool) :
    Option (Nodes × List Str) :=
  match dupeParent e T n with
  | none => none
  | some (T, pp, made) =>
    match copyNode e T pp n with
    | none => none
    | some (T, new) =>
      if descendants && !(textAttr n A_PARENT).isEmpty then
        match own with
        | none => some (T, made ++ [new])
        | some ref =>
          match dupe e fuel T new ref with
          | none => none
          | some (T, more) => some (T, made ++ [new] ++ more)
      else some (T, made ++ [new])

end Nxt.Duplicate
