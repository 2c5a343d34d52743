import Verif.Model.Dict
import Verif.Model.Path
/-!
# Model of the dependency ("dirty") map of a composite layer and of instance traces

The map is a dict from node path to the list of paths which depend on it.  Every list in it was made by
`extend_dirty_map`, so no two entries share a list object.
-/
namespace Nxt.Dirty
open Dict

/-- `dirty_map.get(path, [])`. -/
def concerns (m : Dict Str (List Str)) (p : Str) : List Str := (get? p m).getD []

/-- nxt_layer.py:968-970, the loop over `found`. -/
def addNew (seen : List Str) : List Str → List Str → List Str
  | [], tmp => tmp
  | i :: is, tmp => if i ∈ seen ++ tmp then addNew seen is tmp else addNew seen is (tmp ++ [i])

/-- nxt_layer.py:965-970, one round: `_tmp` at its end. -/
def round (m : Dict Str (List Str)) (seen new : List Str) : List Str :=
  new.foldl (fun tmp c => addNew seen (concerns m c) tmp) []

/-- nxt_layer.py:964-972, the `while` loop, at most `fuel` tests of its condition. -/
def dirtyLoop (m : Dict Str (List Str)) : Nat → List Str → List Str → Option (List Str)
  | 0, _, _ => none
  | fuel + 1, seen, new =>
    if new = [] then some seen else dirtyLoop m fuel (seen ++ round m seen new) (round m seen new)

/-- nxt_layer.py:956-973 `get_node_dirties`. -/
def nodeDirties (m : Dict Str (List Str)) (fuel : Nat) (p : Str) : Option (List Str) :=
  dirtyLoop m fuel (concerns m p) (p :: concerns m p)

/-- stage.py:3489-3506 `extend_dirty_map`; `same` is object identity of two strings (`is`). -/
def extend (same : Str → Str → Bool) (m : Dict Str (List Str)) (p c : Str) : Dict Str (List Str) :=
  if p = Path.WORLD ∨ c = Path.WORLD then m
  else
    let cs := concerns m p
    let m := if cs = [] then set p cs m else m
    if !same c p ∧ c ∉ cs then set p (cs ++ [c]) m else m

/-- stage.py:3508-3517 `remove_from_dirty_map`; `list.remove` takes out the first equal item. -/
def remove (m : Dict Str (List Str)) (p : Str) : Dict Str (List Str) :=
  if p = Path.WORLD then m
  else (if p ∈ keys m then erase p m else m).map (fun kv => (kv.1, if p ∈ kv.2 then kv.2.erase p else kv.2))

/-- One update of the map. -/
inductive Op where
  | extend (p c : Str)
  | remove (p : Str)

/-- A history of updates. -/
def runOps (same : Str → Str → Bool) (m : Dict Str (List Str)) (ops : List Op) : Dict Str (List Str) :=
  ops.foldl (fun m op => match op with | .extend p c => extend same m p c | .remove p => remove m p) m

/-- stage.py:3455-3473 `get_instance_sources`.  `inst` gives the instance path of a composite node (`none`
when there is no such attribute or no such node); `nodes` are the node paths of the layer, nodes are
identified with their paths.  At most `fuel` nested calls. -/
def instanceSources (nodes : List Str) (inst : Str → Option Str) : Nat → Str → List Str → Option (List Str)
  | 0, _, _ => none
  | fuel + 1, node, trace =>
    match inst node with
    | none => some trace
    | some p =>
      if p ∈ nodes ∧ p ∉ trace then instanceSources nodes inst fuel p (trace ++ [p]) else some trace

end Nxt.Dirty
