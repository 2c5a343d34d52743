import Verif.Model.Start
import Verif.Spec.Exec
/-!
# Specification of where an execution starts and what it runs
-/
namespace Nxt.Spec
open Dict Tree Exec

/-- Neither the node nor a node above it, the world apart, is switched off. -/
def Live (nodes : Nodes) (q : Str) : Prop := ∀ a, a = q ∨ Above a q → a ≠ ['/'] → ¬ Off nodes a

/-- A list of exactly what has to be run of a root `r`: the live ones of the root and the nodes below it, each once, and
each after those above it. -/
structure Block (nodes : Nodes) (r : Str) (l : List Str) : Prop where
  mem : ∀ q, q ∈ l ↔ (q = r ∨ IsDescendant nodes r q) ∧ Live nodes q
  nodup : l.Nodup
  order : ∀ A q B, l = A ++ q :: B → ∀ a ∈ l, Above a q → a ∈ A

/-- `p` is the first node in the layer, the world apart, with a true start point. -/
def FirstStart (nodes : Nodes) (point : Str → Val) (p : Str) : Prop :=
  ∃ A n B, nodes = A ++ (p, n) :: B ∧ p ≠ ['/'] ∧ (point p).truthy = true ∧
    ∀ e ∈ A, e.1 ≠ ['/'] → (point e.1).truthy = false

end Nxt.Spec
