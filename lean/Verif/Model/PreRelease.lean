import Verif.Model.Convert
/-!
# Model of the converter of pre-release files as a whole (`V1`, nxt/legacy.py)

The tree of nodes is read from the file data into `LNode`s first; the code reads it while unpacking.  As a file whose
tree cannot be read raises in both, the order is the same to a caller.
-/
namespace Nxt.PreRelease
open Dict Layer Legacy Convert

/-- `d.get(k)`. -/
def getOr (k : String) (d : Dict Str Val) : Val := (get? k.toList d).getD .none

/-- legacy.py:131-156: the entries of a node. -/
def nodeOf (d : Dict Str Val) (kids : Option (List LNode)) : Option LNode :=
  match get? "name".toList d, get? "data".toList d, kids with
  | some (.str name), some (.dict e), some cs =>
    some (.mk name (getOr "widget_type" e) (getOr "execute_in" d) (getOr "instance" e) (getOr "enabled" e) (getOr "compute" e)
      (getOr "comment" d) (getOr "attributes" e) (getOr "execute_order" d) cs)
  | _, _, _ => none

/-- Both read. -/
def consOf (n : Option LNode) (ns : Option (List LNode)) : Option (List LNode) :=
  match n, ns with
  | some n, some ns => some (n :: ns)
  | _, _ => none

mutual
/-- legacy.py:129-162: what is read of one node; `none` when it raises.  The entry `data` must be a dict and the name a
text. -/
def readNode : Val → Option LNode
  | .dict d => nodeOf d (readKids d)
  | _ => none
/-- legacy.py:161: `node_data.get("children", [])`. -/
def readKids : List (Str × Val) → Option (List LNode)
  | [] => some []
  | (k, v) :: r => if k = "children".toList then readList v else readKids r
/-- Simplification: children which are not a list raise (an empty text or dict would not). -/
def readList : Val → Option (List LNode)
  | .list l => readNodes l
  | _ => none
/-- legacy.py:161-162, the loop. -/
def readNodes : List Val → Option (List LNode)
  | [] => some []
  | v :: r => consOf (readNode v) (readNodes r)
end

/-- legacy.py:115-119: the children of the file. -/
def rootsOf (d : Dict Str Val) : Option (List LNode) :=
  match get? "children".toList d with
  | none => some []
  | some v => readList v

/-- legacy.py:155: `self.file_data['data'].get('start_nodes', [])`, read for every node.  Simplification: `start_nodes`
which are not a list raise (in a text the code looks for a part of it). -/
def startsOf (roots : List LNode) (d : Dict Str Val) : Option (List Str) :=
  if roots.isEmpty then some []
  else match get? "data".toList d with
    | some (.dict m) =>
      match get? "start_nodes".toList m with
      | none => some []
      | some (.list l) => some (l.filterMap (fun v => match v with | .str s => some s | _ => none))
      | some _ => none
    | _ => none

/-- legacy.py:158: the nodes of the file before; `none` in the second place for none.  Simplification: nodes which are no
dicts raise. -/
def nodesOf (d : Dict Str Val) : Option (Option (Dict Str (Dict Str Val))) :=
  match get? "nodes".toList d with
  | none => some none
  | some (.dict ns) => (collect overOf ns).map some
  | some _ => none

/-- legacy.py:120-122, 158-160: the nodes unpacked. -/
def unpackAll (starts : List Str) (roots : List LNode) (nodes : Option (Dict Str (Dict Str Val))) :
    Option (Dict Str (Dict Str Val)) :=
  match nodes, roots with
  | none, [] => none
  | nodes, roots => some (unpackNodes starts ['/'] (nodes.getD []) roots)

/-- legacy.py:158-160, 125-126: the nodes are put into the file, arranged and thinned out. -/
def putNodes (nodes : Option (Dict Str (Dict Str Val))) (d : Dict Str Val) : Dict Str Val :=
  match nodes with
  | none => d
  | some t => set "nodes".toList (.dict ((dropNodes (arrangeNodes t)).map (fun e => (e.1, .dict e.2)))) d

/-- legacy.py:123-124: the entry `data` becomes the entry `meta_data`. -/
def putMeta (d : Dict Str Val) : Dict Str Val :=
  match get? "data".toList d with
  | none => d
  | some v => set "meta_data".toList v (erase "data".toList d)

/-- legacy.py:112-127 `V1.convert`; `none` when it raises. -/
def convertPre (d : Dict Str Val) : Option (Dict Str Val) :=
  (rootsOf d).bind fun roots =>
  (startsOf roots d).bind fun starts =>
  (nodesOf d).map fun nodes =>
  let d := erase "children".toList d
  let d := putNodes (unpackAll starts roots nodes) d
  deepOrder KEYS_V1 (putMeta (set "version".toList (.str "1.0.0".toList) d))

/-- legacy.py:573-578: all converters. -/
def convertAny (fuel : Nat) (d : Dict Str Val) : Version.Res (Dict Str Val) := convertData convertPre fuel d

end Nxt.PreRelease
