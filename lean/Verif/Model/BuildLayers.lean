import Verif.Model.Build
import Verif.Model.Layer
/-!
# Model of what `build_stage` takes from the layers of a stage (nxt/stage.py:2607-2669)

Which layers are composed, what they hand over besides nodes, and how it ends.

Simplifications: the node tables are given sorted (`sort_node_table`, 2642); `muted` and `soloed` are what `get_muted` and
`get_soloed` give (see `Verif.Model.Overrides`), `cwd` what `get_cwd` gives.  The unique id, the layer range, the messages,
the counts and `assign_layer_parents`, which changes no node, are left out.
-/
namespace Nxt.BuildLayers
open Dict

/-- What `build_stage` reads of a layer. -/
structure BLayer where
  nodes : Comp.LayerNodes
  positions : Dict Str Val
  collapse : Dict Str Val
  muted : Bool
  soloed : Bool
  cwd : Str
  realPath : Option Str

/-- How the composing ends: there is nothing to compose (2630-2632), or the passes were made; then `none` is a failed
or endless composition (see `Verif.Model.Build`). -/
inductive Outcome where
  | nothing
  | composed (r : Option (Mro.Classes × Dict Str Nat))

/-- The composite layer. -/
structure BComp where
  positions : Dict Str Val
  collapse : Dict Str Val
  cwd : Option Str
  realPath : Option Str
  outcome : Outcome

/-- stage.py:2620-2625: one layer, from the weakest on; `i` counts down. -/
def takeLayer (fromIdx : Nat) (acc : Dict Str Val × Dict Str Val × List BLayer × Nat) (l : BLayer) :
    Dict Str Val × Dict Str Val × List BLayer × Nat :=
  (update acc.1 l.positions, update acc.2.1 l.collapse, if acc.2.2.2 > fromIdx then l :: acc.2.2.1 else acc.2.2.1, acc.2.2.2 - 1)

/-- stage.py:2616-2625. -/
def takeLayers (fromIdx : Nat) (top : BLayer) (layers : List BLayer) : Dict Str Val × Dict Str Val × List BLayer × Nat :=
  layers.reverse.foldl (takeLayer fromIdx) ([], top.collapse, [], layers.length)

/-- stage.py:2640-2651: the nodes of a layer which take part. -/
def tableOf (nodePaths : List Str) (l : BLayer) : Comp.LayerNodes :=
  if nodePaths = [] then l.nodes else l.nodes.filter (fun e => decide (e.1 ∈ nodePaths))

/-- What a call gives: `NotImplementedError` (2608-2610), an `AttributeError` for a stage without layers (2616, where
`top_layer` is `None`), or a composite layer. -/
inductive BRes where
  | notImplemented
  | noLayers
  | ok (c : BComp)

/-- stage.py:2607-2669 `build_stage`. -/
def buildStage (same : Str → Str → Bool) (kids : List Str → Str → List Str) (fuel fromIdx : Nat) (nodePaths : List Str)
    (layers : List BLayer) : BRes :=
  if nodePaths ≠ [] ∧ nodePaths ≠ [Path.WORLD] then .notImplemented
  else match layers with
    | [] => .noLayers
    | top :: _ =>
      let t := takeLayers fromIdx top layers
      match Layer.activeLayers BLayer.muted BLayer.soloed t.2.2.1 with
      | [] => .ok ⟨t.1, t.2.1, none, none, .nothing⟩
      | a :: as => .ok ⟨t.1, t.2.1, some a.cwd, a.realPath,
          .composed (Build.compose same kids a.realPath fuel ((a :: as).map (tableOf nodePaths)))⟩

end Nxt.BuildLayers
