import Verif.Model.Layer
import Verif.Model.Path
/-!
# Model of spec nodes as attribute tables: saving and loading node data
(`nxt/nxt_node.py`, `SpecLayer._construct_node_specs`)

A spec node is a class object; the model keeps its `__dict__` without the entries Python itself adds
(`__module__`, `__doc__`), which are in `BUILTINS` and skipped by every function below.
-/
namespace Nxt.NodeData
open Dict Layer Py

/-! ### Names (nxt_node.py:19-87) -/

def A_CODE : Str := "_code".toList
def A_EXECUTE_IN : Str := "_execute_in".toList
def A_COMMENT : Str := "_comment".toList
def A_START : Str := "_start_point".toList
def A_ENABLED : Str := "_enabled".toList
def A_INSTANCE : Str := "_instance".toList
def A_CHILD_ORDER : Str := "_child_order".toList
def A_NAME : Str := "_name".toList
def A_SOURCE_LAYER : Str := "_source_layer".toList
def A_PROXY : Str := "_proxy".toList
def A_PARENT : Str := "_parent_path".toList
def A_NODE_PATH : Str := "_node_path".toList
def A_CACHED : Str := "_cached_code".toList

/-- nxt_node.py:46-47. -/
def TRACKED : List Str := [A_CODE, A_EXECUTE_IN, A_COMMENT, A_START, A_ENABLED, A_INSTANCE]
/-- nxt_node.py:49-50. -/
def UNTRACKED : List Str := [A_CHILD_ORDER, A_NAME, A_SOURCE_LAYER, A_PROXY, A_PARENT, A_NODE_PATH]
/-- nxt_node.py:56. -/
def ALL : List Str := TRACKED ++ UNTRACKED
/-- nxt_node.py:58-59. -/
def SAVED : List Str :=
  [A_START, A_INSTANCE, A_EXECUTE_IN, A_CHILD_ORDER, A_ENABLED, A_COMMENT, A_CODE]
/-- nxt_node.py:60. -/
def WORLD_SAVED : List Str := [A_COMMENT, A_CODE]

/-- nxt_node.py:69-73 `INTERNAL_ATTRS.as_save_key`: what follows the first `_`. -/
def saveKey (a : Str) : Str :=
  if a = A_NAME then "name".toList else ((partition? ['_'] a).map Prod.snd).getD []

def M_COMMENT : Str := "_comment__nxt".toList
def M_TYPE : Str := "_type__nxt".toList
def M_SOURCE : Str := "_source__nxt".toList
/-- nxt_node.py:83 `META_ATTRS.ALL`. -/
def METAS : List Str := [M_COMMENT, M_TYPE, M_SOURCE]

/-- Save keys of the sub attributes, nxt_node.py:85-89. -/
def K_COMMENT : Str := "comment".toList
def K_TYPE : Str := "type".toList
def K_SOURCE : Str := "source".toList
def K_VALUE : Str := "value".toList

/-- nxt_node.py:250: the keys of `__dict__` which count as user attributes.  `builtins` is
`dir(type('NodeSpec', (object,), {}))`, which depends on the Python version. -/
def isUser (builtins : List Str) (k : Str) : Bool :=
  !(decide (k ∈ builtins ++ TRACKED ++ UNTRACKED ++ [A_CACHED])) && !(METAS.any (endsWith k))

/-- The class `Node`, nxt_node.py:92-97, base of every spec node. -/
def NODE_CLASS : Dict Str Val :=
  [(A_NAME, .str "node".toList), (A_PARENT, .str ['/']), (A_CHILD_ORDER, .list []),
   (A_PROXY, .bool false), (A_ENABLED, .bool true)]

/-- nxt_node.py:183-184 `get_node_attr` with default `None`, on a spec node: own table, then `Node`. -/
def getAttr (n : Dict Str Val) (k : Str) : Val := ((get? k n).or (get? k NODE_CLASS)).getD .none

/-! ### Saving -/

/-- nxt_node.py:253-270, the sub attributes of one user attribute. -/
def subAttrs (n : Dict Str Val) (k : Str) : Dict Str Val :=
  let comment := getAttr n (k ++ M_COMMENT)
  let typ := getAttr n (k ++ M_TYPE)
  let value := getAttr n k
  let d : Dict Str Val := []
  let d := if comment.truthy then set K_COMMENT comment d else d
  let d := if typ.truthy then set K_TYPE typ d else d
  let d := if value.truthy && value.serialisable then set K_VALUE value d else d
  sortByKey d

/-- nxt_node.py:246-272, the loop over `__dict__`. -/
def userAttrs (builtins : List Str) (n : Dict Str Val) : Dict Str Val :=
  (keys n).foldl (fun d k => if isUser builtins k then set k (.dict (subAttrs n k)) d else d) []

/-- nxt_node.py:278-280: which internal attributes are saved. -/
def savedAttrs (n : Dict Str Val) : List Str :=
  match getAttr n A_NAME with
  | .str s => if s = Path.WORLD then WORLD_SAVED else SAVED
  | _ => SAVED

/-- nxt_node.py:281-286. -/
def saveInternals (n : Dict Str Val) (attrs : List Str) (d : Dict Str Val) : Dict Str Val :=
  attrs.foldl (fun d a => if (getAttr n a).hasOpinion then set (saveKey a) (getAttr n a) d else d) d

/-- nxt_node.py:239-287 `get_node_as_dict`. -/
def saveNode (builtins : List Str) (n : Dict Str Val) : Dict Str Val :=
  let user := userAttrs builtins n
  let d := if user.isEmpty then [] else set ATTRS (.dict (sortByKey user)) []
  orderNodeDict (saveInternals n (savedAttrs n) d)

/-! ### Loading -/

/-- nxt_node.py:112-121, the loop over the sub attributes of `a`.  Unknown ones are skipped. -/
def loadSub (a : Str) : List (Str × Val) → Dict Str Val → Dict Str Val
  | [], attrs => attrs
  | (k, v) :: rest, attrs =>
    if k = K_VALUE then loadSub a rest (set a v attrs)
    else
      let m := "_".toList ++ k ++ "__nxt".toList
      if m ∈ METAS then loadSub a rest (set (a ++ m) v attrs) else loadSub a rest attrs

/-- nxt_node.py:109-121, the loop over the user attributes; `none` when the data of an attribute is
not a dict (`AttributeError`). -/
def loadAttrs (src : Val) : List (Str × Val) → Dict Str Val → Option (Dict Str Val)
  | [], attrs => some attrs
  | (a, .dict data) :: rest, attrs =>
    loadAttrs src rest (loadSub a data (set (a ++ M_SOURCE) src (set a .none attrs)))
  | _ :: _, _ => none

/-- nxt_node.py:64, `DEFAULTS`. -/
def internalDefault (a : Str) : Val :=
  if a = A_CODE then .list [] else if a = A_PARENT then .str Path.WORLD else .none

/-- nxt_node.py:123-129, the value of one internal attribute. -/
def internalValue (data : Dict Str Val) (a : Str) : Val :=
  let v := (get? (saveKey a) data).getD .none
  if !v.hasOpinion && a ≠ A_ENABLED then internalDefault a else v

/-- nxt_node.py:122-130. -/
def loadInternals (data : Dict Str Val) (attrs : Dict Str Val) : Dict Str Val :=
  ALL.foldl (fun at' a => set a (internalValue data a) at') attrs

/-- The names in a child order; `none` when it is not a list of strings (not modelled further). -/
def names : Val → Option (List Str)
  | .list l => l.mapM (fun v => match v with | .str s => some s | _ => none)
  | _ => none

/-- nxt_node.py:131-135: duplicates are removed. -/
def dedup : List Str → List Str → List Str
  | [], acc => acc
  | c :: cs, acc => if c ∈ acc then dedup cs acc else dedup cs (acc ++ [c])

/-- nxt_node.py:104: the name in the node data. -/
def nameData (data : Dict Str Val) : Option Str :=
  match get? "name".toList data with
  | some (.str s) => some s
  | _ => none

/-- nxt_node.py:107: the user attributes in the node data. -/
def userData (data : Dict Str Val) : Option (Dict Str Val) :=
  match get? ATTRS data with
  | none => some []
  | some (.dict d) => some d
  | some _ => none

/-- nxt_node.py:133: the child order in the node data. -/
def orderData (data : Dict Str Val) : Option (List Str) :=
  match get? "child_order".toList data with
  | none => some []
  | some v => names v

/-- `layer.real_path` as an attribute value. -/
def layerVal : Option Str → Val
  | some l => .str l
  | none => .none

/-- nxt_node.py:101-145, 158-160 `create_spec_node`, the node made (what it does to the parent is in
`Verif.Model.LayerLoad`).  `none` stands for an exception. -/
def createSpecNode (data : Dict Str Val) (layer : Option Str) (parent : Str) (isProxy : Bool) :
    Option (Dict Str Val) := do
  let name ← nameData data
  let path := Path.joinNodePath parent name
  let user ← userData data
  let attrs ← loadAttrs (.src layer path) user []
  let attrs := loadInternals data attrs
  let order ← orderData data
  let attrs := set A_NAME (.str name) attrs
  let attrs := set A_PROXY (.bool isProxy) attrs
  let attrs := set A_CHILD_ORDER (.list ((dedup order []).map Val.str)) attrs
  let attrs := set A_SOURCE_LAYER (layerVal layer) attrs
  let attrs := set A_PARENT
    (if isProxy then
      match get? "parent_path".toList data with
      | some v => if v.truthy then v else .str parent
      | none => .str parent
     else .str parent) attrs
  return TRACKED.foldl (fun at' a => set (a ++ M_SOURCE) (.src layer path) at') attrs

/-- nxt_layer.py:161-167: the node data of a file entry completed and turned into a node. -/
def constructNode (layer : Option Str) (path : Str) (data : Dict Str Val) : Option (Dict Str Val) :=
  let data := set "name".toList (.str (Path.nodeName path)) data
  let data := set A_SOURCE_LAYER (layerVal layer) data
  createSpecNode data layer (Path.parentPath path) false

end Nxt.NodeData
