import Verif.Model.Comp
import Verif.Model.Path
/-!
# Model of `set_node_instance_path`: the instance path of a composite node while its specs are edited (nxt/stage.py)

Of the composite node only the instance path and its source are modelled, of its base classes only the spec nodes with
their layers and instance paths, strong to weak.  What the change does to the base classes, the proxies and the dirty
nodes is not modelled here (see `Verif.Model.Inherit`, `Verif.Model.Proxies`).
-/
namespace Nxt.InstancePath
open NodeData

/-- A composite node: its path, its specs as layer and instance path, its own instance path with the layer and the path
of its source.  `others` are the further instance paths which `get_historical_opinions` meets in the resolution order,
behind the specs, in classes taken for instance sources. -/
structure Node (L : Type) where
  path : Str
  specs : List (L × Option Str)
  inst : Option Str
  source : L × Str
  others : List ((L × Str) × Str)

/-- An instance path as a value: `None` or a text. -/
def val : Option Str → Val
  | none => .none
  | some s => .str s

/-- Python's `==` of two instance paths. -/
def same : Val → Val → Bool
  | .none, .none => true
  | .str a, .str b => a == b
  | _, _ => false

/-- stage.py:1523-1525 and nxt_node.py:212-236: whether the composite node stays as it is.  The loop never goes beyond the
spec of the target layer, so the bases behind the specs are not read. -/
def unchanged {L : Type} [DecidableEq L] (c : Node L) (target : L) : Bool :=
  Comp.hasStronger same (val c.inst) (c.specs.map (fun s => (s.1, val s.2))) target

/-- stage.py:4186-4199: the opinions found in the resolution order, each with its source, without repetitions. -/
def history {L : Type} [DecidableEq L] (c : Node L) : List ((L × Str) × Str) :=
  let found := (match c.inst with | none => [] | some p => [(c.source, p)]) ++
    c.specs.filterMap (fun s => s.2.map (fun p => ((s.1, c.path), p))) ++ c.others
  found.foldl (fun h e => if e ∈ h then h else h ++ [e]) []

/-- stage.py:4200-4206: the local opinion is taken off; the node is not a proxy. -/
def historical {L : Type} [DecidableEq L] (c : Node L) : List ((L × Str) × Str) :=
  if (history c).length = 1 then [] else (history c).drop 1

/-- stage.py:1534-1548: the instance path the composite node gets; any text is an opinion. -/
def newInst {L : Type} [DecidableEq L] (c : Node L) (given : Option Str) : Option Str :=
  match given with
  | some p => Path.expandRelative (some p) c.path
  | none =>
    match (historical c).head? with
    | none => none
    | some e => Path.expandRelative (some e.2) c.path

/-- stage.py:1490-1558 `set_node_instance_path` with a composite layer. -/
def setInstance {L : Type} [DecidableEq L] (c : Node L) (target : L) (given : Option Str) : Node L :=
  let specs := c.specs.map (fun s => if s.1 = target then (s.1, given) else s)
  if unchanged c target then { c with specs := specs }
  else { c with specs := specs, inst := newInst c given, source := (target, c.path) }

end Nxt.InstancePath
