import Verif.Model.NodeData
/-!
# Model of the first composition pass (`comp_pre_proxies`, nxt/stage.py)

A layer is the dict of its nodes by path; a node is its attribute table (see `Verif.Model.NodeData`).
Namespaces are identified with paths (property C08).  A composite node is a class with its own table and
a tuple of bases; reading an attribute looks in its own table, then in the bases in order, then in
`Node` — Python's method resolution order, every spec node having `Node` as its only base.
-/
namespace Nxt.Comp
open Dict NodeData

/-- The nodes of one layer. -/
abbrev LayerNodes := Dict Str (Dict Str Val)

/-- A composite node. -/
structure CompNode where
  own : Dict Str Val
  bases : List (Dict Str Val)

/-- `getattr(comp_node, k, None)`. -/
def CompNode.attr (c : CompNode) (k : Str) : Val :=
  (((get? k c.own).or (c.bases.findSome? (get? k))).or (get? k NODE_CLASS)).getD .none

/-- stage.py:2694-2717, the loop over the nodes of one layer: `base_mapping`. -/
def addLayer (m : Dict Str (List (Dict Str Val))) (layer : LayerNodes) : Dict Str (List (Dict Str Val)) :=
  layer.foldl (fun m pn => set pn.1 ((get? pn.1 m).getD [] ++ [pn.2]) m) m

/-- stage.py:2692-2717 `base_mapping`; `layers` from strong to weak. -/
def baseMapping (layers : List LayerNodes) : Dict Str (List (Dict Str Val)) := layers.foldl addLayer []

/-- stage.py:35-52 and 2720-2721: the attributes composed by the reference arc. -/
def OVERLOAD : List Str := [A_START, A_ENABLED, A_EXECUTE_IN, A_INSTANCE, A_COMMENT, A_CODE]

/-- The source layer of a node as part of an attribute source. -/
def srcLayer (n : Dict Str Val) : Option Str :=
  match getAttr n A_SOURCE_LAYER with
  | .str s => some s
  | _ => none

/-- stage.py:2736-2744, one attribute of one base. -/
def overloadAttr (path : Str) (n : Dict Str Val) (own : Dict Str Val) (a : Str) : Dict Str Val :=
  if (getAttr n a).hasOpinion then set (a ++ M_SOURCE) (.src (srcLayer n) path) (set a (getAttr n a) own)
  else own

/-- The child order of a node; one which is not a list of names counts as empty. -/
def childOrder (n : Dict Str Val) : List Str := (names (getAttr n A_CHILD_ORDER)).getD []

/-- stage.py:2729-2756, the loop over `reversed(bases)`: own table and child order. -/
def overloadBase (path : Str) (st : Dict Str Val × List Str) (n : Dict Str Val) : Dict Str Val × List Str :=
  (OVERLOAD.foldl (overloadAttr path n) st.1,
   if path = Path.WORLD then st.2 else Lists.listMerger (childOrder n) st.2)

/-- stage.py:2724-2756, one composite node.  Line 2708 gives it the name of its strongest spec; lines
2730-2734 give it the child order of the weakest. -/
def compNode (path : Str) (bases : List (Dict Str Val)) : CompNode :=
  let own0 : Dict Str Val := match bases.head? with | some n => [(A_NAME, getAttr n A_NAME)] | none => []
  let co0 := match bases.getLast? with | some n => childOrder n | none => []
  let st := bases.reverse.foldl (overloadBase path) (own0, co0)
  { own := set A_CHILD_ORDER (.list (st.2.map Val.str)) st.1, bases := bases }

/-- stage.py:2678-2757 `comp_pre_proxies`: the composite nodes by path. -/
def compPre (layers : List LayerNodes) : Dict Str CompNode :=
  (baseMapping layers).map (fun pb => (pb.1, compNode pb.1 pb.2))

/-! ### Stronger opinions -/

/-- nxt_node.py:226-234, the loop of `has_stronger_opinion`: `(result, val)` at its end.  A base is given
by its source layer and its value of the attribute. -/
def strongerLoop {L : Type} [DecidableEq L] (target : L) : List (L × Val) → Bool → Val → Bool × Val
  | [], result, val => (result, val)
  | (l, v) :: rest, result, _ =>
    if l = target then (result, v)
    else if v.hasOpinion then (true, v)
    else strongerLoop target rest false v

/-- nxt_node.py:212-236 `has_stronger_opinion`; `eq` is Python's `==`. -/
def hasStronger {L : Type} [DecidableEq L] (eq : Val → Val → Bool) (comp : Val) (bases : List (L × Val))
    (target : L) : Bool :=
  let r := strongerLoop target bases false .none
  if eq comp r.2 then false else r.1

end Nxt.Comp
