import Verif.Model.Inherit
import Verif.Model.Targeted
/-!
# Model of looking behind a composed node (nxt/stage.py)

`CompArc.get_bases_arc_dict`, `get_node_spec` and `safe_get_node_instance` on the classes of a composite layer
(`Verif.Model.Mro`, `Verif.Model.Inherit`).  `is` is object identity of two texts.
-/
namespace Nxt.Arcs
open Dict NodeData Mro

/-- A value which is a text; other values count as the empty text. -/
def text : Val → Str
  | .str s => s
  | _ => []

/-- stage.py:91-92: the class is among `get_instance_sources` of the node at a path. -/
def isSource (nodes : Dict Str Nat) (g : Classes) (p : Str) (b : Nat) : Bool :=
  (Inherit.trace nodes g p).any (fun q => get? q nodes == some b)

/-- stage.py:60-96 `get_arc` of the class `b` for the composite node `c` at a path. -/
def arcOf (is : Str → Str → Bool) (nodes : Dict Str Nat) (g : Classes) (p : Str) (c b : Nat) : Option Targeted.Arc :=
  Targeted.getArc is (isSource nodes g p b) (text (g.attr c A_PARENT)) (text (g.attr c A_NAME)) (text (g.attr c A_INSTANCE))
    (text (g.attr b A_PARENT)) (text (g.attr b A_NAME))

/-- The dict of `get_bases_arc_dict`; `other` is what is filed under `None`. -/
structure ArcDict where
  refs : List Nat := []
  parent : Option Nat := none
  inst : Option Nat := none
  other : Option Nat := none
deriving DecidableEq

/-- stage.py:112-118, one base class. -/
def file (arc : Nat → Option Targeted.Arc) (d : ArcDict) (b : Nat) : ArcDict :=
  match arc b with
  | some .reference => { d with refs := d.refs ++ [b] }
  | some .parent => { d with parent := some b }
  | some .inst => { d with inst := some b }
  | none => { d with other := some b }

/-- stage.py:98-119 `get_bases_arc_dict`.  A missing list of references is read as the empty one, as all callers
do. -/
def arcDict (arc : Nat → Option Targeted.Arc) (bases : List Nat) : ArcDict := bases.foldl (file arc) {}

/-- Whether a class is a `SpecNode` (nxt_node.py:165-170): neither a composite node nor `Node`. -/
def isSpec (nodes : Dict Str Nat) (d : Nat) : Bool := d != 0 && !nodes.any (fun e => e.2 == d)

/-- stage.py:3641-3649 `get_node_spec`, at most `fuel` tests of the loop.  No base class raises `IndexError`: no
result. -/
def nodeSpec (spec : Nat → Bool) (bases : Nat → List Nat) : Nat → Nat → Option Nat
  | 0, _ => none
  | fuel + 1, c =>
    if spec c then some c
    else match bases c with
      | [] => none
      | b :: _ => nodeSpec spec bases fuel b

/-- stage.py:1563-1580 `safe_get_node_instance` with `expanded` of the node `c` at a path: the node and the path. -/
def safeInstance (nodes : Dict Str Nat) (g : Classes) (p : Str) (c : Nat) : Option Nat × Option Str :=
  match g.attr c A_INSTANCE with
  | .str i => ((Path.expandRelative (some i) p).bind (fun r => get? r nodes), Path.expandRelative (some i) p)
  | _ => (none, none)

end Nxt.Arcs
