import Verif.Model.Targeted
import Verif.Model.Mro
import Verif.Model.Names
/-!
# Model of the questions about opinions and attribute names

`get_node_attr_names`, `get_node_instanced_attr_names`, `get_node_inherited_attr_names`, `get_layers_with_opinion`,
`get_uncomped_opinion`, `get_historical_opinions` (nxt/stage.py).
-/
namespace Nxt.Opinions
open Dict NodeData Mro Py

/-! ### Names of attributes -/

/-- `dir(c)`: the names in the tables of all classes of the resolution order.  The order of names is not that of Python,
which sorts them; the names of `object` are left out, all are among those left out below (nxt_node.py:43). -/
def dir (g : Classes) (c : Nat) : List Str := ((g.mro c).getD []).flatMap (fun d => keys (g.own d))

/-- The loop over `dir(…)` in stage.py:1628-1635, 1666-1673, 3707-3714: the names which are not `bad` are added. -/
def collect (bad : List Str) (names : List Str) (attrs : List Str) : List Str :=
  names.foldl (fun attrs a =>
    if a ∈ attrs then attrs else if a ∈ bad then attrs
    else if endsWith a "__nxt".toList then attrs else attrs ++ [a]) attrs

/-- stage.py:1626-1636 `get_node_attr_names`; `prot` is `INTERNAL_ATTRS.PROTECTED`. -/
def attrNames (prot names : List Str) : List Str := collect prot names []

/-- What is read of a stage: whether there is a composite node at a path, its parent path, its instance path (none when it has
none or an empty one), the names local to it (`get_node_local_attr_names`) and `dir` of it. -/
structure Env where
  prot : List Str
  there : Str → Bool
  parent : Str → Str
  inst : Str → Option Str
  loc : Str → List Str
  names : Str → List Str

/-- stage.py:3696-3702: the nearest node above, at most `fuel` steps. -/
def above (E : Env) : Nat → Str → Option Str
  | 0, _ => none
  | fuel + 1, p =>
    if E.there p then some p else if p = Path.WORLD then none else above E fuel (Path.parentPath p)

/-- stage.py:1638-1674 and 3688-3717: the names a node has by instancing and by inheritance, at most `fuel` levels.  In the code
these are two functions calling each other; both are asked about the parent, so the pair of it is all that is needed. -/
def parts (E : Env) : Nat → Str → List Str × List Str
  | 0, _ => ([], [])
  | fuel + 1, p =>
    let up := if E.there (E.parent p) then parts E fuel (E.parent p) else ([], [])
    let inherited := if E.there (E.parent p) then E.loc (E.parent p) ++ up.2 else []
    let attrs := up.1.filter (· ∉ inherited)
    let inst := match E.inst p with
      | none => attrs
      | some i => if E.there i then collect (E.prot ++ inherited ++ E.loc p) (E.names i) attrs else attrs
    let inh := match above E ((E.parent p).length + 2) (E.parent p) with
      | none => []
      | some q => collect (E.prot ++ inst ++ E.loc p) (E.names q) []
    (inst, inh)

/-- The calls of `get_node_instanced_attr_names` (first) and `get_node_inherited_attr_names` made for one call of each, at a
node with `d` nodes above it: stage.py:1651, 1653 and 3705. -/
def calls : Nat → Nat × Nat
  | 0 => (1, 2)
  | d + 1 => let i := 1 + (calls d).1 + (calls d).2; (i, 1 + i)

/-! ### Opinions of layers -/

/-- stage.py:3519-3546 `get_layers_with_opinion`.  `has` tells whether the node of the layer has an opinion on the attribute. -/
def layersWithOpinion (sub list : List Nat) (exists_ : Nat → Bool) (attr : Str) (has : Nat → Bool) : List Nat :=
  let list := if list = [] then sub else list
  let result := list.foldl (fun r l => if exists_ l then r ++ [l] else r) []
  if attr = [] then result
  else result.foldl (fun r l => if has l then r else r.erase l) result

/-- stage.py:1608-1616 `get_uncomped_opinion` for a composite node: `spec` tells which classes are specs. -/
def uncomped (g : Classes) (spec : Nat → Bool) (c : Nat) (a : Str) : Option Val :=
  match (g.bases c).find? (fun b => spec b && (g.attr? b a).isSome) with
  | none => none
  | some b => g.attr? b a

/-! ### History -/

/-- stage.py:4187-4193: the classes read for an attribute.  `node` tells which are composite or spec nodes. -/
def wanted (internal : Bool) (node : Nat → Bool) (arc : Nat → Option Targeted.Arc) (a : Str) (b : Nat) : Bool :=
  if internal then node b && (decide (a ∈ Targeted.passed (arc b)) || decide (arc b = some .inst)) else true

/-- stage.py:4194-4199, one class: sources and values so far; `none` is an `AttributeError`.  `same` is `==` of values. -/
def historyStep (g : Classes) (same : Val → Val → Bool) (a : Str) (h : List (Val × Val)) (b : Nat) : Option (List (Val × Val)) :=
  if (g.attr b a).hasOpinion then
    match g.attr? b (a ++ M_SOURCE) with
    | none => none
    | some s => if h.any (fun e => same e.1 s && same e.2 (g.attr b a)) then some h else some (h ++ [(s, g.attr b a)])
  else some h

/-- stage.py:4185-4199: the historical opinions with the local one. -/
def history (g : Classes) (same : Val → Val → Bool) (want : Nat → Bool) (a : Str) (c : Nat) : Option (List (Val × Val)) :=
  (((g.mro c).getD []).filter want).foldlM (historyStep g same a) []

/-- stage.py:4173-4206 `get_historical_opinions`. -/
def historical (g : Classes) (same : Val → Val → Bool) (want : Nat → Bool) (a : Str) (c : Nat) (proxy includeLocal : Bool) :
    Option (List (Val × Val)) :=
  (history g same want a c).map (fun h => if proxy || includeLocal then h else if h.length = 1 then [] else h.drop 1)

end Nxt.Opinions
