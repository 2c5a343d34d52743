import Verif.Model.Increment
import Verif.Spec.Inherit
import Verif.Spec.Targeted
import Verif.Spec.Files
/-!
# Specification for nodes added to a composed stage
-/
namespace Nxt.Spec
open Dict Increment

/-- The nodes at a path with the index of their layers, strongest layer first. -/
def indexedStack (layers : List Comp.LayerNodes) (p : Str) : List (Nat × Dict Str Val) :=
  layers.zipIdx.filterMap (fun l => (get? p l.1).map (fun n => (l.2, n)))

/-- The state of a composite layer which stands for these layers, none of whose nodes is an instance: a composite node
for every path in a layer, with the specs of its layers, strong to weak, and then the nearest node above as its bases.
No attribute of the user is in a table other than those of the specs. -/
structure Settled (layers : List Comp.LayerNodes) (S : St) (specs links : Nat → List Nat) : Prop where
  laid : Laid S.g S.nodes specs links
  path : ∀ p c, (p, c) ∈ S.nodes → ∃ ns, Names ns ∧ p = render ns
  link : ∀ ns c, Names ns → (render ns, c) ∈ S.nodes → links c = (nearestAbove S.nodes ns).toList
  free : ∀ p, get? p S.nodes = none ↔ stack layers p = []
  tables : ∀ p c, (p, c) ∈ S.nodes →
    (specs c).map (fun s => (S.layer s, S.g.own s)) = (indexedStack layers p).map (fun x => (some x.1, x.2))
  addr : ∀ ns c, Names ns → (render ns, c) ∈ S.nodes → ∀ d ∈ c :: specs c, S.addr d = (parentText ns, nameText ns)
  own : ∀ p c, (p, c) ∈ S.nodes → ∀ b k, UserName b k → get? k (S.g.own c) = none
  node : ∀ b k, UserName b k → get? k (S.g.own 0) = none

/-- The layers with one more spec. -/
def putSpec (layers : List Comp.LayerNodes) (i : Nat) (p : Str) (n : Dict Str Val) : List Comp.LayerNodes :=
  layers.modify i (Dict.set p n)

/-- A spec as `create_spec_node` makes it for the namespace, without an instance path. -/
structure SpecTable (ns : List Str) (n : Dict Str Val) : Prop where
  parent : get? "_parent_path".toList n = some (.str (parentText ns))
  inst : get? "_instance".toList n = some .none
  keys : ∀ a ∈ ["_enabled", "_comment", "_code"].map String.toList, (get? a n).isSome

/-- A call which adds a spec where its layer has none.  If the path is new in the stage, nothing is below it; if not, a
weaker layer has the path too or some layer has a node above it. -/
structure Addable (layers : List Comp.LayerNodes) (ns : List Str) (c : Call) : Prop where
  names : Names ns
  par : c.par = parentText ns
  name : c.name = nameText ns
  layer : ∃ l, layers[c.layer]? = some l ∧ get? (render ns) l = none
  table : SpecTable ns c.table
  leaf : stack layers (render ns) = [] → ∀ m ms, Names (ns ++ m :: ms) → stack layers (render (ns ++ m :: ms)) = []
  place : stack layers (render ns) ≠ [] →
    (∃ j l, c.layer < j ∧ layers[j]? = some l ∧ (get? (render ns) l).isSome) ∨
    ∃ q m ms, ns = q ++ m :: ms ∧ stack layers (render q) ≠ []

/-- A history of such calls, from the layers at its start to those at its end. -/
inductive Added : List Comp.LayerNodes → List Call → List Comp.LayerNodes → Prop
  | done {layers : List Comp.LayerNodes} : Added layers [] layers
  | more {layers layers' : List Comp.LayerNodes} {ns : List Str} {c : Call} {calls : List Call} :
      Addable layers ns c → Added (putSpec layers c.layer (render ns) c.table) calls layers' →
      Added layers (c :: calls) layers'

/-- The enabled state, comment and code of every node are those of the strongest spec with an opinion, if there is one. -/
def Opined (layers : List Comp.LayerNodes) (S : St) : Prop :=
  ∀ ns c, Names ns → get? (render ns) S.nodes = some c → ∀ a ∈ ["_enabled", "_comment", "_code"].map String.toList,
    match strongest (stack layers (render ns)) a with
    | some n => S.g.attr c a = NodeData.getAttr n a
    | none => (S.g.attr c a).hasOpinion = false

/-- A history in which the parent of every node is there before it. -/
inductive Planted : List Comp.LayerNodes → List Call → List Comp.LayerNodes → Prop
  | done {layers : List Comp.LayerNodes} : Planted layers [] layers
  | more {layers layers' : List Comp.LayerNodes} {ns : List Str} {c : Call} {calls : List Call} :
      Addable layers ns c → (ns = [] ∨ stack layers (render ns.dropLast) ≠ []) →
      Planted (putSpec layers c.layer (render ns) c.table) calls layers' → Planted layers (c :: calls) layers'

end Nxt.Spec
