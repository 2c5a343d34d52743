import Verif.Model.Lists
/-!
# Specification for child orders
-/
namespace Nxt.Spec

/-- The child order composition gives a node from the orders of its layers, the strongest first. -/
def composedOrder : List (List Str) → List Str
  | [] => []
  | [o] => o
  | o :: os => Lists.listMerger o (composedOrder os)

/-- The names of `l` which are in `m`, in the order of `l`. -/
def within (m l : List Str) : List Str := l.filter (· ∈ m)

end Nxt.Spec
