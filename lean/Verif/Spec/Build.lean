import Verif.Spec.Comp
import Verif.Spec.Inherit
import Verif.Spec.Proxies
/-!
# Specification of a composition from the layers to the values
-/
namespace Nxt.Spec
open Dict

/-- Every spec node of the layers has a name. -/
def Named (layers : List Comp.LayerNodes) : Prop :=
  ∀ l ∈ layers, ∀ p n, (p, n) ∈ l → ∃ s, get? "_name".toList n = some (.str s)

/-- The nodes of the layers and their instance paths: a node is there when a layer has it, and its instance path is
that of the strongest layer with an opinion on it. -/
def instPathOf (layers : List Comp.LayerNodes) (ns : List Str) : Option (Option Str) :=
  if stack layers (render ns) = [] then none
  else match (strongest (stack layers (render ns)) "_instance".toList).bind (get? "_instance".toList) with
    | some (.str s) => some (some s)
    | _ => some none

/-- The first node of a list of paths, and there the strongest layer, which has the attribute. -/
def firstSaid (layers : List Comp.LayerNodes) (paths : List (List Str)) (k : Str) : Option Val :=
  paths.findSome? (fun q => (stack layers (render q)).findSome? (get? k))

/-- The lineage of a node with a source: itself and what is above it but not above the source, then the source and what
is above that. -/
def overSource (ns s : List Str) : List (List Str) := (lineage ns).filter (fun a => ¬ a <+: s) ++ lineage s

/-- `ns` is an instance of `s`, or a copy of `s` below an instance; `s` is a node. -/
def Drawn (layers : List Comp.LayerNodes) (ns s : List Str) : Prop :=
  ∃ q r t, ns = q ++ t ∧ s = r ++ t ∧ InstOf (instPathOf layers) q r ∧ Names t ∧ stack layers (render s) ≠ []

/-- The source which a node has, or the nearest node above it which has one. -/
def Under (layers : List Comp.LayerNodes) (ns s : List Str) : Prop :=
  ∃ m, m <+: ns ∧ Drawn layers m s ∧ ∀ m' s', m' <+: ns → Drawn layers m' s' → m' <+: m

/-- What the strongest layer with an opinion says of an attribute of a node. -/
def saidOf (layers : List Comp.LayerNodes) (ns : List Str) (a : Str) : Option Val :=
  (strongest (stack layers (render ns)) a).bind (get? a)

end Nxt.Spec
