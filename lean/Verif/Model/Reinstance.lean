import Verif.Model.Inherit
/-!
# Model of the base classes of a node while its instance path is changed (nxt/stage.py)

`set_node_instance_path` with a composite layer takes the old instance source from the bases of the
composite node (`targeted_uncomp`) and adds the new one (`targeted_comp_proxies`,
`targeted_comp_post_proxies`).  Only the bases of the composite nodes are modelled, and only for instance
sources with nothing below them, real or implied: then no proxies are made or taken away, and the map given
to `targeted_comp_post_proxies` has one entry, or one more for each node which is an instance of the
changed one (`dependants`).  The values of settings which are written on the way are not modelled (see
`Verif.Model.Targeted` for `update_inherited_attrs`), nor are the paths kept in the layers
(`Verif.Model.InstancePath`).
-/
namespace Nxt.Reinstance
open Dict Mro Inherit

/-- The exceptions: `list.remove` of an item which is not there, and an assignment of bases which have no
resolution order. -/
inductive Err where
  | value | type
deriving DecidableEq

/-- stage.py:3372-3381 `_replace_base_classes`; there is no `None` among the bases here. -/
def replaceBases (g : Classes) (c : Nat) (bs : List Nat) : Except Err Classes :=
  if bs = g.bases c then .ok g
  else match g.setBases c bs with
    | some g => .ok g
    | none => .error .type

/-- stage.py:3249-3269, the loop of `targeted_uncomp` for the arc `INSTANCE`; `old` is the instance path of
the composite node, `path` its own path. -/
def uncomp (nodes : Dict Str Nat) (g : Classes) (c : Nat) (path : Str) (old : Str) : Except Err Classes :=
  let bases := g.bases c
  let removed : Except Err (List Nat) :=
    match get? old nodes with
    | none => .ok bases
    | some b => if b ∈ bases then .ok (bases.erase b) else .error .value
  match removed with
  | .error e => .error e
  | .ok bases =>
    let bases := match get? (Path.parentPath path) nodes with
      | none => bases
      | some a => if a ∈ bases then bases else bases ++ [a]
    replaceBases g c bases

/-- stage.py:2866-2875: the parent, or the nearest node above it; `pp` is the parent path. -/
def parentNode (nodes : Dict Str Nat) (pp : Str) : Option Nat :=
  if pp = [] then none else get? (parentBasePath nodes pp) nodes

/-- stage.py:2876-2881: the instance source; the world is none. -/
def sourceNode (nodes : Dict Str Nat) (inst : Option Str) : Option Nat :=
  match inst with
  | none => none
  | some i => if i = Path.WORLD then none else get? i nodes

/-- stage.py:3389-3406 `_safe_mro_add_base_class`, and 3211-3215: nothing is done without a base. -/
def addArc (g : Classes) (c : Nat) : Option Nat → Except Err Classes
  | none => .ok g
  | some b =>
    match g.safeAddBase c b with
    | some g => .ok g
    | none => .error .type

/-- stage.py:2882-2910 and 3203-3226: the bases added after the change, for the parent arc and then for the
instance arc; the nodes which are instances of the changed one have only the second. -/
def recomp (nodes : Dict Str Nat) (g : Classes) (c : Nat) (pp : Str) (inst : Option Str) (dependants : List Nat) :
    Except Err Classes := do
  let g ← addArc g c (parentNode nodes pp)
  let g ← addArc g c (sourceNode nodes inst)
  dependants.foldlM (fun g d => addArc g d (some c)) g

/-- stage.py:1515-1521: the old source is taken away if there is one. -/
def unlink (nodes : Dict Str Nat) (g : Classes) (c : Nat) (path : Str) : Option Str → Except Err Classes
  | none => .ok g
  | some o => if o = [] then .ok g else uncomp nodes g c path o

/-- stage.py:1490-1549 `set_node_instance_path` for a node whose own opinion counts; `old` and `new` are the
instance paths of the composite node before and after. -/
def setInstance (nodes : Dict Str Nat) (g : Classes) (c : Nat) (path pp : Str) (old new : Option Str)
    (dependants : List Nat) : Except Err Classes :=
  (unlink nodes g c path old).bind (fun g => recomp nodes g c pp new dependants)

end Nxt.Reinstance
