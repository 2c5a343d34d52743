import Verif.Model.Comp
/-!
# Model of targeted composition: one spec put into, or taken from, a composite node

`CompArc.get_arc`, the reference arc of `targeted_comp_pre_proxies`, `update_inherited_attrs`, and what
`delete_node` does to a composite node which stays (nxt/stage.py).

The base classes of the composite node are numbers; `Env` has what the functions read of them.  An assignment of
`__bases__` never fails here, see `Verif.Model.Mro` for when it does.
-/
namespace Nxt.Targeted
open Dict NodeData

/-- stage.py:33-37, the composition arcs. -/
inductive Arc where
  | reference | parent | inst
deriving DecidableEq

/-- stage.py:60-96 `get_arc`.  `is` is object identity of two texts, `source` tells whether the node to check is among
the instance sources of the composite node.  An instance path of `None` is the empty text (line 69). -/
def getArc (is : Str → Str → Bool) (source : Bool) (parent name inst checkParent checkName : Str) : Option Arc :=
  let compPath := Path.joinNodePath parent name
  let checkPath :=
    if checkName = Path.WORLD then Path.WORLD
    else Path.joinNodePath (if checkParent = [] then Path.WORLD else checkParent) checkName
  if compPath = checkPath then some .reference
  else if parent = checkPath ∧ Path.isAncestor compPath checkPath then some .parent
  else if is inst checkPath ∨ Path.isAncestor checkPath inst ∨ source then some .inst
  else none

/-- stage.py:42-52 `INHERITANCE_MAP`; a missing arc has nothing (line 3340). -/
def passed : Option Arc → List Str
  | some .reference => [A_START, A_ENABLED, A_EXECUTE_IN, A_INSTANCE, A_COMMENT, A_CODE]
  | some .inst => [A_ENABLED, A_COMMENT, A_CODE]
  | some .parent => []
  | none => []

/-- nxt_node.py:64 `DEFAULTS`, for the attributes of the inheritance map. -/
def default (a : Str) : Val := if a = A_CODE then .list [] else .none

/-- What is read of the base classes of one composite node: whether they are composite nodes and proxies, the index of
their layer in the stage (no index when there is no such layer), their arc, their attributes. -/
structure Env where
  isComp : Nat → Bool
  proxy : Nat → Bool
  layer : Nat → Option Nat
  arc : Nat → Option Arc
  table : Nat → Dict Str Val

/-- The composite node. -/
structure Node where
  own : Dict Str Val
  bases : List Nat

/-- stage.py:2796-2797 and 2800-2801: those with the reference arc. -/
def refs (E : Env) (l : List Nat) : List Nat := l.filter (fun b => E.arc b = some .reference)

/-- stage.py:2785-2806, the loop over the existing bases; `i` is not raised for proxies.  A missing layer raises
`AttributeError`: no result. -/
def insertLoop (E : Env) (tgt spec : Nat) (existing : List Nat) : Nat → List Nat → Option (List Nat)
  | _, [] => some [spec]
  | i, b :: rest =>
    if E.proxy b then insertLoop E tgt spec existing i rest
    else match E.layer b with
      | none => none
      | some l =>
        if tgt < l ∨ E.isComp b then some (refs E (existing.take i) ++ [spec] ++ refs E (existing.drop i))
        else insertLoop E tgt spec existing (i + 1) rest

/-- stage.py:2828-2836: the bases are merged when one of them is there already, else replaced. -/
def newBases (existing bases : List Nat) : List Nat :=
  if ∃ b ∈ bases, b ∈ existing then Lists.listMerger existing bases else bases

/-- stage.py:2840-2850, one attribute of one base. -/
def overload (E : Env) (path : Str) (b : Nat) (own : Dict Str Val) (a : Str) : Dict Str Val :=
  if (getAttr (E.table b) a).hasOpinion ∧ a ∈ passed (some .reference) then
    set (a ++ M_SOURCE) (.src (Comp.srcLayer (E.table b)) path) (set a (getAttr (E.table b) a) own)
  else own

/-- stage.py:2778-2851 `targeted_comp_pre_proxies` for a path with a composite node: the arcs of lines 2807-2821 are
collected and not used. -/
def insertSpec (E : Env) (path : Str) (tgt spec : Nat) (c : Node) : Option Node :=
  (insertLoop E tgt spec c.bases 0 c.bases).map (fun bases =>
    { own := bases.reverse.foldl (fun own b => TRACKED.foldl (overload E path b) own) c.own
      bases := newBases c.bases bases })

/-! ### Inherited attributes -/

/-- stage.py:3341-3354, one attribute of one base: own table and handled attributes. -/
def updateAttr (E : Env) (only : Bool) (b : Nat) (st : Dict Str Val × List Str) (a : Str) : Dict Str Val × List Str :=
  if a ∈ st.2 then st
  else if (getAttr (E.table b) a).hasOpinion then
    (if only then st.1 else set a (getAttr (E.table b) a) st.1, st.2 ++ [a])
  else if only then st
  else (set a (default a) st.1, st.2)

/-- stage.py:3334-3338 `only_check_op`. -/
def onlyCheck (arcs : List Arc) : Option Arc → Bool
  | some x => decide (x ∉ arcs)
  | none => true

/-- stage.py:3332-3354, one base. -/
def updateBase (E : Env) (arcs : List Arc) (st : Dict Str Val × List Str) (b : Nat) : Dict Str Val × List Str :=
  (passed (E.arc b)).foldl (updateAttr E (onlyCheck arcs (E.arc b)) b) st

/-- stage.py:3355-3361, one arc no base has. -/
def updateRest (handled : List Str) (own : Dict Str Val) (arc : Arc) : Dict Str Val :=
  ((passed (some arc)).filter (· ∉ handled)).foldl (fun own a => set a (default a) own) own

/-- stage.py:3324-3362 `update_inherited_attrs`; `proxy` is the one of the composite node. -/
def update (E : Env) (proxy : Bool) (arcs : List Arc) (c : Node) : Node :=
  let st := c.bases.foldl (updateBase E arcs) (c.own, if proxy then [A_INSTANCE] else [])
  { c with own := (arcs.filter (fun x => some x ∉ c.bases.map E.arc)).foldl (updateRest st.2) st.1 }

/-! ### Taking a spec away -/

/-- stage.py:893-904: the child orders of the bases which are left, but for the parent. -/
def mergedOrder (E : Env) (bases : List Nat) : List Str :=
  bases.foldl (fun acc b => if E.arc b = some .parent then acc else Lists.listMerger (Comp.childOrder (E.table b)) acc) []

/-- stage.py:893-908 and 954: a composite node which stays when one of its specs is deleted.  The child order is handed
on to the dependent nodes in between (see `Verif.Model.ChildOrder`). -/
def removeSpec (E : Env) (proxy : Bool) (spec : Nat) (order : List Str) (c : Node) : Node :=
  let bases := c.bases.filter (· ≠ spec)
  let co := mergedOrder E bases
  let own := if order = co then c.own else set A_CHILD_ORDER (.list (co.map Val.str)) c.own
  update E proxy [.reference, .parent, .inst] { own := own, bases := bases }

end Nxt.Targeted
