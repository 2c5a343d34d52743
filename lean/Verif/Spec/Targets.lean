import Verif.Model.Dict
/-!
# Specification of the instances of a node
-/
namespace Nxt.Spec

/-- The node `p` stands for `src`, through one or more steps. -/
inductive StandsFor (nodes : List Str) (inst : Str → Option Str) (src : Str) : Str → Prop
  | one {p : Str} : p ∈ nodes → inst p = some src → StandsFor nodes inst src p
  | more {q p : Str} : StandsFor nodes inst src q → p ∈ nodes → inst p = some q → StandsFor nodes inst src p

end Nxt.Spec
