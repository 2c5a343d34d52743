import Verif.Model.Layer
import Verif.Model.Version
/-!
# Model of the save file converters (nxt/legacy.py)

The file data is a dict as JSON gives it: keys distinct at every level, no sharing.
-/
namespace Nxt.Legacy
open Dict Layer

/-! ### Arranging nodes by depth (the same code three times: legacy.py:164-200, 328-364, 418-454) -/

/-- legacy.py:172: `path.count('/')`. -/
def depth (p : Str) : Nat := Py.count '/' p

/-- legacy.py:243-247, 392-396, 482-486 `_add_path_terminator`. -/
def addTerm (p : Str) : Str := if Py.endsWith p ['/'] then p else p ++ ['/']

/-- legacy.py:238-241, 387-390, 477-480 `is_ancestor`. -/
def isAncestor (path anc : Str) : Bool := Py.startsWith (addTerm path) (addTerm anc)

/-- legacy.py:170-177: `max_depth`. -/
def maxDepth (paths : List Str) : Nat := paths.foldl (fun m p => if depth p > m then depth p else m) 0

/-- legacy.py:169-179: `paths_by_depth[d]`, sorted; empty when missing. -/
def atDepth (paths : List Str) (d : Nat) : List Str := (paths.filter (fun p => depth p = d)).mergeSort strLe

/-- legacy.py:182-188 `handle_path_at_depth`; `acc` is `sorted_paths`.  Every call is for a greater
depth, `fuel` bounds the nesting: `max_depth` is enough (`Verif/Lemmas/Legacy.lean`). -/
def handle (paths : List Str) (maxD : Nat) : Nat → Str → Nat → List Str → List Str
  | 0, _, _, acc => acc
  | fuel + 1, cur, curDepth, acc =>
    (List.range' (curDepth + 1) (maxD - curDepth)).foldl (fun acc d =>
      (atDepth paths d).foldl (fun acc lower =>
        if isAncestor lower cur then
          if lower ∉ acc then handle paths maxD fuel lower d (acc ++ [lower]) else acc
        else acc) acc) acc

/-- legacy.py:190-194: the order in which the nodes are written. -/
def arrangeOrder (paths : List Str) : List Str :=
  let maxD := maxDepth paths
  (List.range' 1 maxD).foldl (fun acc d =>
    (atDepth paths d).foldl (fun acc p =>
      if p ∉ acc then handle paths maxD maxD p d (acc ++ [p]) else acc) acc) []

/-- legacy.py:164-200 `arrange_node_data`, the new table of nodes. -/
def arrangeNodes {V : Type} (nodes : Dict Str V) : Dict Str V :=
  leftoverLoop nodes (arrangeOrder (keys nodes)) []

/-! ### Dropping unlisted nodes -/

/-- legacy.py:249-252 `get_parent_path`. -/
def parentPath (p : Str) : Str := Py.join ['/'] (Py.split '/' p).dropLast

/-- legacy.py:254-257 `get_name_from_path`. -/
def nameFromPath (p : Str) : Str := (Py.split '/' p).getLast?.getD []

/-- `name in v` for a list `v`; anything else has no members.  Simplification: a `child_order` which
is not a list is taken as an empty one. -/
def listed (name : Str) : Val → Bool
  | .list l => l.any (fun v => match v with | .str s => s = name | _ => false)
  | _ => false

/-- legacy.py:225-229: whether a node is to be dropped. -/
def dropped (nodes : Dict Str (Dict Str Val)) (path : Str) : Bool :=
  match get? (parentPath path) nodes with
  | none => false
  | some parent =>
    !parent.isEmpty && !(listed (nameFromPath path) ((get? "child_order".toList parent).getD (.list [])))

/-- legacy.py:222-232 `drop_nodes`. -/
def dropNodes (nodes : Dict Str (Dict Str Val)) : Dict Str (Dict Str Val) :=
  let remove := (keys nodes).foldl (fun r p => if dropped nodes p then r ++ [p] else r) []
  remove.foldl (fun ns p => erase p ns) nodes

/-! ### Reordering keys at every level -/

/-- legacy.py:205-209. -/
def KEYS_V1 : List Str :=
  ["version", "alias", "name", "comment", "color", "mute", "solo", "references", "path", "instance",
   "enabled", "widget_type", "meta_data", "execute_in", "execute_order", "nodes", "attributes", "code",
   "real_path"].map String.toList

/-- legacy.py:369-374, 459-464. -/
def KEYS_V109 : List Str :=
  ["version", "alias", "name", "comment", "color", "mute", "solo", "references", "comp_overrides", "path",
   "instance", "enabled", "widget_type", "meta_data", "aliases", "colors", "collapse", "positions",
   "execute_in", "execute_order", "nodes", "attributes", "code", "real_path"].map String.toList

/-- legacy.py:210-212: known keys are moved to the end, one by one. -/
def reorder {V : Type} (order : List Str) (d : Dict Str V) : Dict Str V :=
  order.foldl (fun d k =>
    match get? k d with
    | some v => set k v (erase k d)
    | none => d) d

mutual
/-- The values of a dict, legacy.py:214-220.  Moving keys and treating the values do not interfere, so
the values are treated first here. -/
def deepPairs (order : List Str) : List (Str × Val) → List (Str × Val)
  | [] => []
  | (k, v) :: r => (k, deepVal order v) :: deepPairs order r
/-- legacy.py:214-220, one value: a dict is ordered, in a list the dicts among the items are. -/
def deepVal (order : List Str) : Val → Val
  | .dict d => .dict (reorder order (deepPairs order d))
  | .list l => .list (deepItems order l)
  | .none => .none
  | .bool b => .bool b
  | .num n => .num n
  | .str s => .str s
  | .src l p => .src l p
  | .other i t s => .other i t s
/-- legacy.py:217-220, the items of a list: lists inside lists are left alone. -/
def deepItems (order : List Str) : List Val → List Val
  | [] => []
  | .dict d :: r => .dict (reorder order (deepPairs order d)) :: deepItems order r
  | v :: r => v :: deepItems order r
end

/-- legacy.py:202-220, 366-385, 456-475 `deep_order_data`. -/
def deepOrder (order : List Str) (d : Dict Str Val) : Dict Str Val := reorder order (deepPairs order d)

/-! ### 0.45 to 1.0: unpacking the tree of nodes -/

/-- A node of a pre-release file.  `.none` stands for a missing entry (all are read by `get`).
Simplification: the entries `name` and `data` are present. -/
inductive LNode where
  | mk (name : Str) (widget execIn inst enabled compute comment attrs execOrder : Val)
       (children : List LNode)

/-- legacy.py:234-236 `has_opinion`: `attr_value not in (None, [], {})`. -/
def hasOpinion : Val → Bool
  | .none => false
  | .list [] => false
  | .dict [] => false
  | _ => true

/-- One optional entry. -/
def entry (k : Str) (v : Val) (d : Dict Str Val) : Dict Str Val := if hasOpinion v then set k v d else d

/-- legacy.py:139-141: `enabled` is kept whenever it is not None, false included. -/
def entryEnabled (v : Val) (d : Dict Str Val) : Dict Str Val :=
  match v with | .none => d | v => set "enabled".toList v d

/-- legacy.py:130-156: the flat data of one node. -/
def flatData (starts : List Str) (path : Str) : LNode → Dict Str Val
  | .mk _ widget execIn inst enabled compute comment attrs execOrder _ =>
    let d : Dict Str Val := []
    let d := entry "widget_type".toList widget d
    let d := entry "execute_in".toList execIn d
    let d := entry "instance".toList inst d
    let d := entryEnabled enabled d
    let d := entry "code".toList compute d
    let d := entry "comment".toList comment d
    let d := entry "attrs".toList attrs d
    let d := entry "child_order".toList execOrder d
    if path ∈ starts then set "start_point".toList (.bool true) d else d

mutual
/-- legacy.py:129-162 `unpack_node_data`: `prefix` is `parent_path`, which ends in `/`. -/
def unpackNode (starts : List Str) (pre : Str) (table : Dict Str (Dict Str Val)) : LNode → Dict Str (Dict Str Val)
  | .mk name widget execIn inst enabled compute comment attrs execOrder children =>
    let path := pre ++ name
    let table := set path
      (flatData starts path (.mk name widget execIn inst enabled compute comment attrs execOrder children)) table
    unpackNodes starts (path ++ ['/']) table children
/-- legacy.py:161-162 and 120-122, the loops over children. -/
def unpackNodes (starts : List Str) (pre : Str) (table : Dict Str (Dict Str Val)) :
    List LNode → Dict Str (Dict Str Val)
  | [] => table
  | n :: ns => unpackNodes starts pre (unpackNode starts pre table n) ns
end

/-! ### 1.9 to 1.10: references -/

/-- A reference of a 1.9 file; `.none` stands for a missing entry, the empty path for a missing path. -/
structure RefIn where
  path : Str
  mute : Val
  solo : Val
  alias : Val
  color : Val

/-- The data `update_refs` writes. -/
structure RefOut where
  refs : List Str
  overs : Dict Str (Dict Str Val)
  aliases : Dict Str Val
  colors : Dict Str Val

/-- `if v is not None: d[k] = v`. -/
def setUnlessNone (k : Str) (v : Val) (d : Dict Str Val) : Dict Str Val :=
  match v with
  | .none => d
  | v => set k v d

/-- legacy.py:284-305, the loop body. -/
def refStep (s : RefOut) (r : RefIn) : RefOut :=
  if r.path.isEmpty then s
  else
    let rDat := (get? r.path s.overs).getD []
    let rDat := setUnlessNone "mute".toList r.mute rDat
    let rDat := setUnlessNone "solo".toList r.solo rDat
    { refs := s.refs ++ [r.path],
      overs := if rDat.isEmpty then s.overs else set r.path rDat s.overs,
      aliases := setUnlessNone r.path r.alias s.aliases,
      colors := setUnlessNone r.path r.color s.colors }

/-- legacy.py:274-315 `update_refs`, the loop. -/
def updateRefs (refs : List RefIn) (overs : Dict Str (Dict Str Val)) (aliases colors : Dict Str Val) : RefOut :=
  refs.foldl refStep { refs := [], overs := overs, aliases := aliases, colors := colors }

/-! ### 1.14 to 1.15 -/

/-- `d.get(k) is False`. -/
def isFalse : Option Val → Bool
  | some (.bool false) => true
  | _ => false

/-- legacy.py:406-415 `V114.convert`, without `arrange_node_data` when there are no nodes (KeyError
caught).  `references is []` is never true. -/
def convert114 (data : Dict Str Val) : Option (Dict Str Val) :=
  let data := set "version".toList (.str "1.15".toList) data
  let data := if isFalse (get? "mute".toList data) then erase "mute".toList data else data
  let data := if isFalse (get? "solo".toList data) then erase "solo".toList data else data
  match get? "nodes".toList data with
  | none => some (deepOrder KEYS_V109 data)
  | some (.dict nodes) => some (deepOrder KEYS_V109 (set "nodes".toList (.dict (arrangeNodes nodes)) data))
  | some _ => none

/-! ### 1.15 to 1.16 -/

/-- The loop over known keys of legacy.py:504-522 and 560-565; `f` treats the value of a key and gives
`none` when that raises. -/
def orderConv (f : Str → Val → Option Val) (data : Dict Str Val) :
    List Str → Dict Str Val → List Str → Option (Dict Str Val × List Str)
  | [], res, left => some (res, left)
  | k :: ks, res, left =>
    if k ∈ left then
      match (get? k data).bind (f k) with
      | some v => orderConv f data ks (set k v res) (left.erase k)
      | none => none
    else orderConv f data ks res left

/-- The loop and the leftovers. -/
def orderAll (f : Str → Val → Option Val) (order : List Str) (data : Dict Str Val) : Option (Dict Str Val) :=
  match orderConv f data order [] (keys data) with
  | some (res, left) => some (leftoverLoop data left res)
  | none => none

/-- `OrderedDict(sorted(v.items(), key=lambda x: x[0]))`; `none` when `v` is not a dict. -/
def sortDict : Val → Option Val
  | .dict d => some (.dict (sortByKey d))
  | _ => none

/-- Apply to every value; `none` when one raises. -/
def mapVals (f : Val → Option Val) : List (Str × Val) → Option (List (Str × Val))
  | [] => some []
  | (k, v) :: r =>
    match f v, mapVals f r with
    | some v', some r' => some ((k, v') :: r')
    | _, _ => none

/-- legacy.py:543-551: the attributes of a node. -/
def orderAttrs : Val → Option Val
  | .dict d => (mapVals sortDict (sortByKey d)).map Val.dict
  | _ => none

/-- legacy.py:538-539. -/
def NODE_KEYS : List Str :=
  ["start_point", "instance", "execute_in", "child_order", "enabled", "comment", "attrs", "code"].map
    String.toList

/-- The treatment of one known key of a node. -/
def nodeKey (k : Str) (v : Val) : Option Val := if k = "attrs".toList then orderAttrs v else some v

/-- legacy.py:536-555 `order_node_data`: no leftovers. -/
def orderNodeData : Val → Option Val
  | .dict d => (orderConv nodeKey d NODE_KEYS [] (keys d)).map (fun r => .dict r.1)
  | _ => none

/-- legacy.py:528-534 `order_nodes_dict`. -/
def orderNodes115 : Val → Option Val
  | .dict d => (mapVals orderNodeData (sortByKey d)).map Val.dict
  | _ => none

/-- legacy.py:558. -/
def META_KEYS : List Str := ["aliases", "colors", "positions", "collapse"].map String.toList

/-- legacy.py:557-570 `order_meta_data`. -/
def orderMeta : Val → Option Val
  | .dict d => (orderAll (fun _ => sortDict) META_KEYS d).map Val.dict
  | _ => none

/-- The treatment of one known top level key, legacy.py:509-522. -/
def topKey (k : Str) (v : Val) : Option Val :=
  if k = "nodes".toList then orderNodes115 v
  else if k = "meta_data".toList then orderMeta v
  else if k = "comp_overrides".toList then sortDict v
  else some v

/-- legacy.py:501-525 `order_save_data`; the key order is that of `SAVE_ORDER`. -/
def orderSave115 (d : Dict Str Val) : Option (Dict Str Val) := orderAll topKey SAVE_ORDER d

/-- legacy.py:496-499 `V115.convert`. -/
def convert115 (d : Dict Str Val) : Option (Dict Str Val) :=
  orderSave115 (set "version".toList (.str "1.16".toList) d)

end Nxt.Legacy
