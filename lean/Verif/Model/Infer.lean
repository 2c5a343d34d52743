import Verif.Model.Increment
import Verif.Model.Layer
/-!
# Model of `infer_lower_comp`: a node as it is some layers below the display layer (nxt/stage.py)

The classes made by the function are modelled apart from those of the stage: the spec classes it puts into the bases
are only read, so copies of them serve as well.  The temporary composite layer holds the inferred node first and then
its ancestors from the world down.

Modelled as far as no instance is followed: where the code would go on to an instance the outcome is `followed`.  Not
modelled: the warning about divergent instances (`_check_if_inst_diverges` only logs), proxies, the child caches.
-/
namespace Nxt.Infer
open Dict NodeData Mro

/-- The result of the function. -/
inductive Outcome where
  /-- the composite node given -/
  | same
  /-- `None` -/
  | nothing
  /-- a `TypeError` of the bases -/
  | fails
  /-- an instance path is followed, which is not modelled -/
  | followed
  /-- a new node: the classes and its number -/
  | node (g : Classes) (c : Nat)

/-- The temporary composite layer and the variable `parent`. -/
structure St where
  g : Classes
  nodes : Dict Str Nat
  parent : Option Nat

/-- stage.py:2195-2210 `get_specs_at_path`. -/
def specsAt (layers : List Comp.LayerNodes) (p : Str) : List (Dict Str Val) :=
  layers.foldl (fun specs l => match get? p l with | some n => specs ++ [n] | none => specs) []

/-- stage.py:2062-2071: the attributes of the dummy spec (without an instance path). -/
def dummy (path : Str) : Dict Str Val :=
  [(A_NAME, .str (Path.nodeName path)), (A_PARENT, .str (Path.parentPath path)), (A_INSTANCE, .none), (A_PROXY, .bool false),
   (A_SOURCE_LAYER, .none)]

/-- stage.py:2099-2104: the instance path set on an ancestor: the strongest opinion, else what the strongest spec has.
Assigning an equal value changes nothing. -/
def ancestorInst (specs : List (Dict Str Val)) : Val :=
  specs.reverse.foldl (fun cur n => if (getAttr n A_INSTANCE).hasOpinion then getAttr n A_INSTANCE else cur)
    (getAttr (specs.headD []) A_INSTANCE)

/-- stage.py:3203-3226 of `targeted_comp_post_proxies` for the arc `PARENT`: the parent, if there
is one, becomes a base. -/
def addParent (g : Classes) (c : Nat) : Option Nat → Option Classes
  | none => some g
  | some b => g.safeAddBase c b

/-- stage.py:2081-2115: one ancestor.  `none` in the first place is an instance followed, in the second a `TypeError`. -/
def ancestor (layers : List Comp.LayerNodes) (st : St) (p : Str) : Option (Option St) :=
  let specs := specsAt layers p
  if specs = [] then some (some st)
  else match get? p st.nodes with
    | some c => some (some { st with parent := some c })
    | none =>
      let inst := ancestorInst specs
      if inst.hasOpinion then none
      else
        let c := st.g.size
        some ((addParent (Inherit.addNode st.g [(A_INSTANCE, inst)] specs) c st.parent).map (fun g =>
          { g := g, nodes := set p c st.nodes, parent := some c }))

/-- stage.py:2081-2115, the loop over the ancestors. -/
def ancestors (layers : List Comp.LayerNodes) : St → List Str → Option (Option St)
  | st, [] => some (some st)
  | st, p :: ps => match ancestor layers st p with
    | none => none
    | some none => some none
    | some (some st') => ancestors layers st' ps

/-- stage.py:2116-2147: the instance and the parent of the inferred node `1`.  The paths of its bases are its own. -/
def finish (path : Str) (specs : List (Dict Str Val)) (st : St) : Outcome :=
  if (getAttr (specs.headD []) A_INSTANCE).hasOpinion then .followed
  else
    let pp := Path.parentPath path
    match addParent st.g 1 (if pp ≠ [] ∧ pp ≠ path then st.parent else none) with
    | none => .fails
    | some g => .node g 1

/-- stage.py:2055-2147 once the active layers are known. -/
def inferIn (layers : List Comp.LayerNodes) (path : Str) : Outcome :=
  let specs := specsAt layers path
  let bases := if specs = [] then [dummy path] else specs
  match ancestors layers ⟨Inherit.addNode Inherit.onlyNode [] bases, [(path, 1)], none⟩
      (Path.allAncestorPaths path ++ [Path.WORLD]).reverse with
  | none => .followed
  | some none => .fails
  | some (some st) => finish path bases st

/-- stage.py:2004-2147 `infer_lower_comp` of the node at `path`, for the layers `sub` of the stage and the range of the
composite layer. -/
def inferLowerComp {L : Type} (muted soloed : L → Bool) (table : L → Comp.LayerNodes) (sub : List L) (display last : Nat)
    (depth : Int) (path : Str) : Outcome :=
  if depth = 0 then .same
  else if depth < 0 then .nothing
  else
    let active := Layer.activeLayers muted soloed ((sub.take (last + 1)).drop (display + depth.toNat))
    if active = [] then .nothing else inferIn (active.map table) path

end Nxt.Infer
