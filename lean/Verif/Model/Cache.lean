import Verif.Model.Runtime
/-!
# Model of the cache layer: nodes executed, saved and loaded again
(`CacheLayer` in nxt/nxt_layer.py)

The nodes of a cache layer are frames (classes without bases, made by `run`) and the composite node of the world; both are
`Rt.RtNode`s, a frame with nothing inherited.  The JSON text between `save` and `load_from_filepath` is left out: values
which `json.dumps` accepts are taken to come back as they were (Python turns tuples into lists on the way).
-/
namespace Nxt.Cache
open Dict NodeData Py Rt Layer

/-- `getattr(node, a, None)`, nxt_node.py:183-184. -/
def attr (n : RtNode) (a : Str) : Val := ((get? a n.own).or (get? a n.inherited)).getD .none

/-- nxt_layer.py:1031-1035 `CacheLayer.add_node`; `none`: the cached code is no text. -/
def addNode (path : Str) (n : RtNode) (nodes : Dict Str RtNode) : Option (Dict Str RtNode) :=
  match (get? A_CACHED n.own).or (get? A_CACHED n.inherited) with
  | none => some (set path { n with own := set A_CODE (.list ((split '\n' ['\n']).map Val.str)) n.own } nodes)
  | some (.str code) => some (set path { n with own := set A_CODE (.list ((split '\n' code).map Val.str)) n.own } nodes)
  | some _ => none

/-- nxt_node.py:251-268: the sub attributes of a user attribute. -/
def subAttrs (n : RtNode) (k : Str) : Dict Str Val :=
  let comment := attr n (k ++ M_COMMENT)
  let typ := attr n (k ++ M_TYPE)
  let value := attr n k
  let d : Dict Str Val := []
  let d := if comment.truthy then set K_COMMENT comment d else d
  let d := if typ.truthy then set K_TYPE typ d else d
  let d := if value.truthy && value.serialisable then set K_VALUE value d else d
  sortByKey d

/-- nxt_node.py:248-269: only the own table of the class is gone through. -/
def userAttrs (builtins : List Str) (n : RtNode) : Dict Str Val :=
  (keys n.own).foldl (fun d k => if isUser builtins k then set k (.dict (subAttrs n k)) d else d) []

/-- nxt_node.py:275-277. -/
def savedAttrs (n : RtNode) : List Str :=
  match attr n A_NAME with
  | .str s => if s = Path.WORLD then WORLD_SAVED else SAVED
  | _ => SAVED

/-- nxt_node.py:239-284 `get_node_as_dict` of such a node. -/
def saveNode (builtins : List Str) (n : RtNode) : Dict Str Val :=
  let user := userAttrs builtins n
  let d := if user.isEmpty then [] else set ATTRS (.dict (sortByKey user)) []
  orderNodeDict ((savedAttrs n).foldl (fun d a => if (attr n a).hasOpinion then set (saveKey a) (attr n a) d else d) d)

/-- nxt_layer.py:1042-1049 `CacheLayer.get_save_data`. -/
def saveData (builtins : List Str) (version : Str) (nodes : Dict Str RtNode) : Dict Str Val :=
  [("version".toList, .str version), ("nodes".toList, .dict (nodes.map (fun pn => (pn.1, .dict (saveNode builtins pn.2)))))]

/-- nxt_layer.py:1057-1065: one entry; `none`: an exception.  While entries are read the layer has no nodes, so
`create_spec_node` finds no parent. -/
def loadNode (path : Str) (data : Dict Str Val) : Option (Dict Str Val) :=
  (createSpecNode (set "name".toList (.str (Path.nodeName path)) data) none (Path.parentPath path) false).bind (fun n =>
    (names (getAttr n A_CODE)).map (fun lines => set A_CACHED (.str (join ['\n'] lines)) n))

/-- nxt_layer.py:1057-1066: the loop over the entries. -/
def loadNodes : List (Str × Val) → Dict Str (Dict Str Val) → Option (Dict Str (Dict Str Val))
  | [], res => some res
  | (p, .dict data) :: rest, res => (loadNode p data).bind (fun n => loadNodes rest (set p n res))
  | _ :: _, _ => none

/-- nxt_layer.py:1051-1068 `CacheLayer.load_from_layer_data`. -/
def load (data : Dict Str Val) : Option (Dict Str (Dict Str Val)) :=
  match get? "nodes".toList data with
  | none => some []
  | some (.dict d) => loadNodes d []
  | some _ => none

end Nxt.Cache
