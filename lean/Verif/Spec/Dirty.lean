import Verif.Model.Dirty
/-!
# Specification of dependency maps: reachability and the set of edges after a history of updates
-/
namespace Nxt.Spec
open Dict Dirty

/-- `q` depends directly on `p` according to the map. -/
def Depends (m : Dict Str (List Str)) (p q : Str) : Prop := ∃ l, get? p m = some l ∧ q ∈ l

/-- `q` depends on `p` through one or more steps. -/
inductive Reach (m : Dict Str (List Str)) (p : Str) : Str → Prop
  | one {q : Str} : Depends m p q → Reach m p q
  | more {q r : Str} : Reach m p q → Depends m q r → Reach m p r

/-- The pairs recorded after a history, newest update first. -/
def Edge (same : Str → Str → Bool) : List Op → Str → Str → Prop
  | [], _, _ => False
  | .extend p c :: ops, a, b =>
    Edge same ops a b ∨ (a = p ∧ b = c ∧ p ≠ "/".toList ∧ c ≠ "/".toList ∧ same c p = false)
  | .remove p :: ops, a, b => Edge same ops a b ∧ (p = "/".toList ∨ (a ≠ p ∧ b ≠ p))

/-- `t` is the chain of instance sources of `n`: each next one is the instance path of the one before. -/
inductive Chain (inst : Str → Option Str) : Str → List Str → Prop
  | nil (n : Str) : Chain inst n []
  | cons {n p : Str} {t : List Str} : inst n = some p → Chain inst p t → Chain inst n (p :: t)

end Nxt.Spec
