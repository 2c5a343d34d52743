import Verif.Model.NodeData
/-!
# Model of loading and saving a whole layer (`SpecLayer.__init__`, `get_save_data`, nxt/nxt_layer.py)
-/
namespace Nxt.LayerData
open Dict Layer NodeData

/-! ### Nodes -/

/-- nxt_node.py:147-157: a new node is added to the child order of its parent when the parent is in the
layer and does not list it.  Neither is a proxy when a layer is loaded. -/
def linkParent (table : Dict Str (Dict Str Val)) (parent name : Str) : Dict Str (Dict Str Val) :=
  match get? parent table with
  | none => table
  | some pn =>
    match names (getAttr pn A_CHILD_ORDER) with
    | none => table
    | some co =>
      if name ∈ co then table
      else set parent (set A_CHILD_ORDER (.list ((Lists.listMerger co [name]).map Val.str)) pn) table

/-- nxt_layer.py:161-175, the loop over the nodes of the file.  The table is `_nodes_path_as_key`;
`spec_list` has the same nodes in the same order as long as paths are distinct. -/
def loadNodes (layer : Option Str) :
    List (Str × Val) → Dict Str (Dict Str Val) → Option (Dict Str (Dict Str Val))
  | [], table => some table
  | (path, .dict data) :: rest, table =>
    match constructNode layer path data with
    | none => none
    | some n =>
      let table := linkParent table (Path.parentPath path) (Path.nodeName path)
      loadNodes layer rest (set (Path.joinNodePath (Path.parentPath path) (Path.nodeName path)) n table)
  | _ :: _, _ => none

/-- nxt_layer.py:156-175 `_construct_node_specs`. -/
def constructNodes (layer : Option Str) (nodes : Dict Str Val) : Option (Dict Str (Dict Str Val)) :=
  loadNodes layer (orderNodesDict nodes) []

/-- nxt_layer.py:917-926 `get_nodes_save_data`. -/
def nodesSaveData (builtins : List Str) (table : Dict Str (Dict Str Val)) : Dict Str Val :=
  orderNodesDict (table.foldl (fun d pn => set pn.1 (.dict (saveNode builtins pn.2)) d) [])

/-! ### Meta data -/

def K_ALIASES : Str := "aliases".toList
def K_COLORS : Str := "colors".toList
def K_LOCKS : Str := "locks".toList
def K_POSITIONS : Str := "positions".toList
def K_COLLAPSE : Str := "collapse".toList

/-- The tables kept in the meta data, in the order `get_meta_data` writes them. -/
def TABLE_KEYS : List Str := [K_ALIASES, K_COLORS, K_LOCKS, K_POSITIONS, K_COLLAPSE]

/-- The meta data of a layer: `_input_metadata` and the tables.  A table found in the input is the very
object in the input dict and is edited in place; one not found lives apart (`own`). -/
structure Meta where
  input : Dict Str Val
  own : Str → Dict Str Val

/-- The table with the given key; `none` when the input holds something else than a dict. -/
def Meta.table (m : Meta) (k : Str) : Option (Dict Str Val) :=
  match get? k m.input with
  | some (.dict d) => some d
  | some _ => none
  | none => some (m.own k)

/-- nxt_layer.py:131-140. -/
def loadMeta (input : Dict Str Val) : Meta := { input := input, own := fun _ => [] }

/-- nxt_layer.py:846-865 `get_meta_data`, from key `k` on. -/
def metaStep (m : Meta) (res : Dict Str Val) (k : Str) : Option (Dict Str Val) :=
  match m.table k with
  | none => none
  | some t => some (if (sortByKey t).isEmpty then res else set k (.dict (sortByKey t)) res)

/-- nxt_layer.py:846-865 `get_meta_data`; `none` when a table is not a dict. -/
def getMetaData (m : Meta) : Option (Dict Str Val) :=
  TABLE_KEYS.foldlM (metaStep m) m.input

/-! ### The layer -/

/-- State of a layer as far as it is saved or loaded. -/
structure LayerState where
  alias : Str
  color : Val
  mute : Bool
  solo : Bool
  lock : Val
  refs : List Str
  overs : Dict Str Val
  md : Meta
  nodes : Dict Str (Dict Str Val)

/-- nxt_layer.py:871-882, the dict before removal of empty entries; `version` is the text of the
current graph version. -/
def rawSaveData (builtins : List Str) (version : Str) (s : LayerState) (md : Dict Str Val) : Dict Str Val :=
  [("version".toList, .str version), ("alias".toList, .str s.alias), ("mute".toList, .bool s.mute),
   ("solo".toList, .bool s.solo), ("references".toList, .list (s.refs.map Val.str)),
   ("comp_overrides".toList, .dict (sortByKey s.overs)), ("color".toList, s.color),
   ("meta_data".toList, .dict md), ("nodes".toList, .dict (nodesSaveData builtins s.nodes))]

/-- nxt_layer.py:871-890 `get_save_data`. -/
def getSaveData (builtins : List Str) (version : Str) (s : LayerState) : Option (Dict Str Val) :=
  (getMetaData s.md).map fun md =>
    orderSaveDict ((rawSaveData builtins version s md).filter (fun kv => !kv.2.isEmptyContainer))

/-- A dict valued entry, empty when missing; `none` when it is something else. -/
def dictEntry (k : Str) (data : Dict Str Val) : Option (Dict Str Val) :=
  match get? k data with
  | none => some []
  | some (.dict d) => some d
  | some _ => none

/-- The references of the file, nxt_layer.py:125-129: empty ones are dropped. -/
def refsEntry (data : Dict Str Val) : Option (List Str) :=
  match get? "references".toList data with
  | none => some []
  | some v => (names v).map (fun l => l.filter (fun r => !r.isEmpty))

/-- The alias of the file, nxt_layer.py:122; `fileName` is the default. -/
def aliasEntry (fileName : Str) (data : Dict Str Val) : Option Str :=
  match get? "alias".toList data with
  | none => some fileName
  | some (.str s) => some s
  | some _ => none

/-- nxt_layer.py:99-146 `SpecLayer.__init__`; `none` stands for an exception. -/
def loadLayer (layer : Option Str) (fileName : Str) (data : Dict Str Val) : Option LayerState := do
  let alias ← aliasEntry fileName data
  let overs ← dictEntry "comp_overrides".toList data
  let refs ← refsEntry data
  let md ← dictEntry "meta_data".toList data
  let nodeData ← dictEntry "nodes".toList data
  let nodes ← constructNodes layer nodeData
  return { alias := alias, color := (get? "color".toList data).getD .none, mute := false, solo := false,
           lock := (get? "lock".toList data).getD (.bool false), refs := refs, overs := overs,
           md := loadMeta md, nodes := nodes }

end Nxt.LayerData
