import Verif.Model.Children
import Verif.Spec.Path
/-!
# Specification of the node tree of a layer
-/
namespace Nxt.Spec
open Dict Tree

/-- The layer is well formed: paths are rendered name lists, and each node carries the name and the parent
path its path tells. -/
structure TreeOk (nodes : Nodes) : Prop where
  ok : Ok nodes
  node : ∀ q n, (q, n) ∈ nodes → (q = ['/'] ∧ n.parent = [] ∧ n.name = ['/']) ∨
    ∃ ns x, Names (ns ++ [x]) ∧ q = render (ns ++ [x]) ∧ n.parent = render ns ∧ n.name = x
  order : ∀ q n, (q, n) ∈ nodes → n.childOrder.Nodup

/-- The real children a query gets for a path, in any order. -/
def KidsOk (nodes : Nodes) (kids : Str → Nodes) : Prop :=
  ∀ p, p ≠ [] → (kids p).Perm (nodes.filter (fun e => e.2.parent = p))

/-- `q` is a node directly below `p`. -/
def IsChild (nodes : Nodes) (p q : Str) : Prop :=
  ∃ ns x, Names (ns ++ [x]) ∧ p = render ns ∧ q = render (ns ++ [x]) ∧ q ∈ keys nodes

/-- `q` is directly below `p`, and is a node or on the way to one. -/
def IsImplied (nodes : Nodes) (p q : Str) : Prop :=
  ∃ ns x rest, Names (ns ++ [x] ++ rest) ∧ p = render ns ∧ q = render (ns ++ [x]) ∧
    render (ns ++ [x] ++ rest) ∈ keys nodes

/-- Reached from `p` by one or more steps to a child. -/
inductive Below {α : Type} (child : α → α → Prop) (p : α) : α → Prop where
  | one {q : α} : child p q → Below child p q
  | step {q r : α} : Below child p q → child q r → Below child p r

/-- `q` is a node below `p` and every path between them is a node too. -/
def IsDescendant (nodes : Nodes) (p q : Str) : Prop :=
  ∃ ns rest, Names (ns ++ rest) ∧ rest ≠ [] ∧ p = render ns ∧ q = render (ns ++ rest) ∧
    ∀ a b, rest = a ++ b → a ≠ [] → render (ns ++ a) ∈ keys nodes

/-- `q` is below `p`, and is a node or on the way to one. -/
def IsImpliedDescendant (nodes : Nodes) (p q : Str) : Prop :=
  ∃ ns rest more, Names (ns ++ rest ++ more) ∧ rest ≠ [] ∧ p = render ns ∧ q = render (ns ++ rest) ∧
    render (ns ++ rest ++ more) ∈ keys nodes

end Nxt.Spec
