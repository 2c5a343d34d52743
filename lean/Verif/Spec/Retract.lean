import Verif.Model.Retract
import Verif.Spec.Increment
/-!
# Specification for edits of a composed stage
-/
namespace Nxt.Spec
open Dict Increment Retract

/-- The layers without one spec. -/
def dropSpec (layers : List Comp.LayerNodes) (i : Nat) (p : Str) : List Comp.LayerNodes := layers.modify i (Dict.erase p)

/-- One edit of a composed stage, with the layers before and after it.  A change of attributes keeps the internal ones.
A spec is deleted if another layer has the node too, or nothing is below the node. -/
inductive Edited (layers : List Comp.LayerNodes) : Edit → List Comp.LayerNodes → Prop
  | add {ns : List Str} {c : Call} : Addable layers ns c → Edited layers (.add c) (putSpec layers c.layer (render ns) c.table)
  | retable {ns : List Str} {i : Nat} {l : Comp.LayerNodes} {n n' : Dict Str Val} {f : Dict Str Val → Option (Dict Str Val)} :
      Names ns → layers[i]? = some l → get? (render ns) l = some n → f n = some n' →
      (∀ k ∈ internalNames, get? k n' = get? k n) →
      Edited layers (.retable i (render ns) f) (putSpec layers i (render ns) n')
  | remove {ns : List Str} {i : Nat} {l : Comp.LayerNodes} {n : Dict Str Val} :
      Names ns → layers[i]? = some l → get? (render ns) l = some n →
      ((∃ j l', j ≠ i ∧ layers[j]? = some l' ∧ (get? (render ns) l').isSome) ∨
        ∀ m ms, Names (ns ++ m :: ms) → stack layers (render (ns ++ m :: ms)) = []) →
      Edited layers (.remove i (render ns)) (dropSpec layers i (render ns))

/-- A history of edits. -/
inductive History : List Comp.LayerNodes → List Edit → List Comp.LayerNodes → Prop
  | done {layers : List Comp.LayerNodes} : History layers [] layers
  | more {layers layers' layers'' : List Comp.LayerNodes} {e : Edit} {es : List Edit} :
      Edited layers e layers' → History layers' es layers'' → History layers (e :: es) layers''

/-- Every node has its parent in some layer. -/
def Whole (layers : List Comp.LayerNodes) : Prop :=
  ∀ ns, Names ns → ns ≠ [] → stack layers (render ns) ≠ [] → stack layers (render ns.dropLast) ≠ []

/-- A history of edits which never leaves a node without its parent. -/
inductive Tended : List Comp.LayerNodes → List Edit → List Comp.LayerNodes → Prop
  | done {layers : List Comp.LayerNodes} : Whole layers → Tended layers [] layers
  | more {layers layers' layers'' : List Comp.LayerNodes} {e : Edit} {es : List Edit} :
      Whole layers → Edited layers e layers' → Tended layers' es layers'' → Tended layers (e :: es) layers''

end Nxt.Spec
