import Verif.Spec.Retract
import Verif.Spec.AttrSource
/-!
# Specification for edits of values in a composed stage with instances (C147)
-/
namespace Nxt.Spec
open Dict NodeData Increment Retract

/-- It is known of the specs a composite node stands on which layers they are from, and they are what these layers have at
the path.  Nodes copied from instance sources, at paths in no layer, are left out. -/
def LayersKnown (layers : List Comp.LayerNodes) (S : St) : Prop :=
  ∀ p c, get? p S.nodes = some c → stack layers p ≠ [] →
    ((S.g.bases c).filter (fun s => !isComp S s)).map (fun s => (S.layer s, S.g.own s)) =
      (indexedStack layers p).map (fun x => (some x.1, x.2))

/-- Each user attribute of a node in the layer with the real path says that it is from there, and nothing else says so. -/
def SignedNode (builtins : List Str) (real : Option Str) (p : Str) (n : Dict Str Val) : Prop :=
  ∀ k, UserName builtins k → AttrName k → look n k .source = if (look n k .value).isSome then some (.src real p) else none

/-- Only attributes of specs are changed. -/
def ValuesOnly (es : List Edit) : Prop := ∀ e ∈ es, ∃ i p f, e = .retable i p f

end Nxt.Spec
