import Verif.Model.ChildCache
/-!
# Specification of the child cache
-/
namespace Nxt.Spec
open Dict Tree

/-- Every entry which can be read (not those of the world and of the empty path) holds the children of its path. -/
def CacheOk (nodes : Nodes) (c : Cache) : Prop :=
  ∀ p e, get? p c = some e → p ≠ [] → p ≠ ['/'] → e.nodes = e.paths ∧ e.table = e.paths ∧
    e.paths.Nodup ∧ ∀ q, q ∈ e.paths ↔ ∃ n, (q, n) ∈ nodes ∧ n.parent = p

/-- A step which keeps the cache right: a new node is new, and its parent is cached if it has children. -/
def Allowed (nodes : Nodes) (c : Cache) : COp → Prop
  | .add path n => path ∉ keys nodes ∧
      (n.parent ∈ keys c ∨ ∀ q m, (q, m) ∈ nodes → m.parent ≠ n.parent)
  | _ => True

/-- A history of allowed steps. -/
def AllowedAll (same : Str → Str → Bool) (st : Nodes × Cache) : List COp → Prop
  | [] => True
  | op :: ops => Allowed st.1 st.2 op ∧ AllowedAll same (stepC same st op) ops

end Nxt.Spec
