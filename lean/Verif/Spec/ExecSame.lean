import Verif.Spec.Exec
/-!
# Specification: what the order of execution depends on
-/
namespace Nxt.Spec
open Dict Tree

/-- The same nodes, in any order, with the same child orders and the same root to execute after (the world apart), and on
or off alike. -/
structure SameTree (a b : Nodes) : Prop where
  paths : ∀ p, p ∈ keys a ↔ p ∈ keys b
  node : ∀ p n m, p ≠ ['/'] → get? p a = some n → get? p b = some m → n.childOrder = m.childOrder ∧
    ∀ s, n.execIn = .str s ↔ m.execIn = .str s
  off : ∀ p, Off a p ↔ Off b p

/-- Every node below another node, the world apart, is in its child order. -/
def AllListed (nodes : Nodes) : Prop :=
  ∀ ns x n, Names (ns ++ [x]) → ns ≠ [] → render (ns ++ [x]) ∈ keys nodes → get? (render ns) nodes = some n → x ∈ n.childOrder

/-- No two roots execute after the same one. -/
def OneNext (nodes : Nodes) : Prop :=
  ∀ p n q m s, get? p nodes = some n → get? q nodes = some m → n.parent = ['/'] → m.parent = ['/'] →
    n.execIn = .str s → m.execIn = .str s → p = q

end Nxt.Spec
