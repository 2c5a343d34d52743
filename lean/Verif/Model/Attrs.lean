import Verif.Model.NodeData
import Verif.Model.Names
/-!
# Model of the editing of user attributes: `add_node_attr`, `delete_node_attr`, `rename_node_attr`,
`node_setattr_data`, and the copying of node data (nxt/stage.py)

A spec node is its `__dict__` (see `Verif.Model.NodeData`).  The result `none` of a function stands for an
exception (`IndexError` of an empty name) or a search for a name which is still running.

Not modelled: the internal attributes in `node_setattr_data` (name, child order, instance path, code,
enabled), Python 2 strings, the messages, and the returned lists of dirty nodes.
-/
namespace Nxt.Attrs
open Dict NodeData

/-- What the functions read besides the node.  `builtins` is `INTERNAL_ATTRS.BUILTINS`, what every
class has, and `prot` is `INTERNAL_ATTRS.PROTECTED`; `muted` tells whether the
layer is muted; `layer` and `path` are the real path of the layer and the path of the node; `typeName` is
`determine_nxt_type` (stage.py:4145-4150), which evaluates literals; `text` is `str`; `fuel` bounds the
search for a name. -/
structure Ctx where
  cc : Names.CharClass
  builtins : List Str
  prot : List Str
  muted : Bool
  layer : Option Str
  path : Str
  typeName : Val → Str
  text : Val → Str
  fuel : Nat

/-- nxt_layer.py:1115-1144 for one layer: a muted layer is not active and has no local attributes. -/
def tables (c : Ctx) (n : Dict Str Val) : List (List Str) := if c.muted then [] else [keys n]

/-- `get_node_local_attr_names(node_path, [layer])`. -/
def localNames (c : Ctx) (n : Dict Str Val) : List Str := Names.localAttrNames c.prot (tables c n)

/-- `get_unique_attr_name(node_path, layer, a)`. -/
def freeName (c : Ctx) (n : Dict Str Val) (a : Str) : Option Str :=
  match Names.uniqueAttrName c.cc c.prot (tables c n) (some a) c.fuel with
  | .ok b => some b
  | _ => none

/-- The name of the meta attribute for a sub attribute, stage.py:1242, 1441. -/
def metaName (k : Str) : Str := "_".toList ++ k ++ "__nxt".toList

/-- The value of the `…_source__nxt` attributes. -/
def src (c : Ctx) : Val := .src c.layer c.path

/-- stage.py:1234-1248, one sub attribute. -/
def addSub (b : Str) (n : Dict Str Val) (kv : Str × Val) : Dict Str Val :=
  if kv.1 = K_SOURCE then n
  else if kv.1 = K_VALUE then set b kv.2 n
  else if metaName kv.1 ∈ METAS then set (b ++ metaName kv.1) kv.2 n
  else n

/-- stage.py:1229-1252 `add_node_attr`: the name given to the attribute, and the node. -/
def addAttr (c : Ctx) (n : Dict Str Val) (a : Str) (data : Dict Str Val) (tracked : Bool) : Option (Str × Dict Str Val) :=
  (freeName c n a).map (fun b =>
    let n := data.foldl (addSub b) n
    (b, if tracked then set (b ++ M_SOURCE) (src c) n else n))

/-- stage.py:1258-1261: a meta attribute is deleted if there is one. -/
def dropMeta (a : Str) (n : Dict Str Val) (m : Str) : Dict Str Val :=
  if a ++ m ∈ keys n then erase (a ++ m) n else n

/-- stage.py:1254-1263 `delete_node_attr`: what is returned (`none` when `delattr` raises, as the attribute is
not the node's own), and the node. -/
def deleteAttr (c : Ctx) (n : Dict Str Val) (a : Str) : Option Bool × Dict Str Val :=
  if a ∈ keys n ∨ a ∈ keys NODE_CLASS ∨ a ∈ c.builtins then
    let n := METAS.foldl (dropMeta a) n
    if a ∈ keys n then (some true, erase a n) else (none, n)
  else (some false, n)

/-- stage.py:1275-1280, one meta attribute. -/
def moveMeta (a b : Str) (n : Dict Str Val) (m : Str) : Dict Str Val :=
  match get? (a ++ m) n with
  | none => n
  | some v => erase (a ++ m) (set (b ++ m) v n)

/-- stage.py:1265-1280 `rename_node_attr`. -/
def renameAttr (c : Ctx) (n : Dict Str Val) (a new : Str) : Option (Dict Str Val) :=
  (freeName c n new).map (fun b =>
    if a ∈ localNames c n then METAS.foldl (moveMeta a b) (erase a (set b (getAttr n a) n)) else n)

/-- stage.py:1423-1433: an empty text becomes `None`. -/
def clean : Val → Val
  | .str [] => .none
  | v => v

/-- stage.py:1424-1462, one sub attribute of an attribute which is not internal.  The state is the node and
the local attributes as they are known to the function. -/
def setSub (c : Ctx) (a : Str) (create : Bool) (values : Dict Str Val) (st : Dict Str Val × List Str) (kv : Str × Val) :
    Option (Dict Str Val × List Str) :=
  if kv.1 ≠ K_VALUE ∧ metaName kv.1 ∉ METAS then some st
  else if a ∈ st.2 then
    if kv.1 = K_VALUE then
      let n := set a (clean kv.2) st.1
      let n := if a ∉ c.prot then set (a ++ M_SOURCE) (src c) (set (a ++ M_TYPE) (.str (c.typeName (clean kv.2))) n) else n
      some (n, st.2)
    else some (set (a ++ metaName kv.1) (clean kv.2) st.1, st.2)
  else if create then (addAttr c st.1 a values true).map (fun r => (r.2, st.2 ++ [a]))
  else some st

/-- stage.py:1406-1488 `node_setattr_data` for an attribute which is not internal. -/
def setData (c : Ctx) (n : Dict Str Val) (a : Str) (create : Bool) (values : Dict Str Val) : Option (Dict Str Val) :=
  (values.foldlM (setSub c a create values) (n, localNames c n)).map Prod.fst

/-! ### Copying node data -/

/-- stage.py:1676-1706 `get_node_attr_value` with `resolved=False`, for an attribute which is not protected. -/
def rawValue (c : Ctx) (v : Val) : Val :=
  match v with
  | .none => .str []
  | v => if v.truthy then v else .str (c.text v)

/-- stage.py:1772-1784: the data of one attribute. -/
def attrData (c : Ctx) (n : Dict Str Val) (a : Str) : Dict Str Val :=
  [(K_VALUE, rawValue c (getAttr n a)), (K_COMMENT, getAttr n (a ++ M_COMMENT))]

/-- stage.py:1363-1404 `transfer_node_data` from node to node, the user attributes.  `c` belongs to the source,
`d` to the target; `order` is the order in which a set gives the local names (line 1773). -/
def transfer (c d : Ctx) (source target : Dict Str Val) (order : List Str) : Option (Dict Str Val) :=
  order.foldlM (fun n a => setData d n a true (attrData c source a)) target

end Nxt.Attrs
