import Verif.Spec.Attrs
import Verif.Spec.Files
import Verif.Spec.Comp
/-!
# Specification of attribute sources
-/
namespace Nxt.Spec
open Dict

/-- Each user attribute of each spec node says which layer and which path it is from, and nothing else says so. -/
def Signed (builtins : List Str) (L : List (Option Str × Comp.LayerNodes)) : Prop :=
  ∀ l ∈ L, ∀ p n, (p, n) ∈ l.2 → ∀ k, UserName builtins k → AttrName k →
    look n k .source = if (look n k .value).isSome then some (.src l.1 p) else none

/-- No source without its attribute. -/
def NoOrphan (n : Dict Str Val) : Prop := ∀ k, AttrName k → (look n k .source).isSome → (look n k .value).isSome

end Nxt.Spec
