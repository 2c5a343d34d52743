import Verif.Model.NodeData
/-!
# Specification of the node save/load round trip
-/
namespace Nxt.Spec
open Dict NodeData

/-- What a value becomes on saving and loading: kept when truthy and JSON serialisable, else `None`. -/
def kept (v : Val) : Val := if v.truthy && v.serialisable then v else .none

/-- A sub attribute survives when truthy. -/
def keptMeta (v : Val) : Val := if v.truthy then v else .none

/-- What an internal attribute becomes. -/
def keptInternal (n : Dict Str Val) (a : Str) : Val :=
  if a ∈ savedAttrs n ∧ (getAttr n a).hasOpinion then getAttr n a else internalDefault a

/-- The children of `p` among the paths `P`, by name, which `o` does not list. -/
def missing (P : List Str) (o : List Str) (p : Str) : List Str :=
  ((P.filter (fun q => Path.parentPath q = p)).map Path.nodeName).filter (fun c => c ∉ o)

end Nxt.Spec
