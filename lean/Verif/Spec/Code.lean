import Verif.Model.Code
/-!
# Specification for code and enabled states
-/
namespace Nxt.Spec
open Code

/-- The lines a composite node shows. -/
def linesOf (L : Layout) (S : St) (p : Str) : List Str := S.heap (addr L S p)

/-- The code composition gives: that of the strongest spec which has any, else that of the instance source, else none. -/
def composedCode (heap : Nat → List Str) (refs : List Nat) (inst : Option (List Str)) : List Str :=
  ((refs.map heap).find? (fun l => l ≠ [])).getD (inst.getD [])

/-- A dependent which ends the loop over the dependents: it is not there, one of its specs has code, or it has the new
list already and that has code. -/
def Stops (L : Layout) (S : St) (live : Nat) (d : Str) : Prop :=
  L.there d = false ∨ (∃ r ∈ L.refs d, S.heap r ≠ []) ∨ (addr L S d = live ∧ S.heap live ≠ [])

instance (L : Layout) (S : St) (live : Nat) (d : Str) : Decidable (Stops L S live d) := by unfold Stops; infer_instance

/-- The resolution order of a node: its specs, strong to weak, of which the `k`-th is the one set, the nodes above it, and
what comes from the instance source. -/
def resolution (path : Str) (specs : List (Option Bool)) (k : Nat) (above src : List Infl) : List Infl :=
  specs.mapIdx (fun j st => ⟨j == k, path, st⟩) ++ above ++ src

/-- The state composition gives: the first opinion of the specs, strong to weak, and then of the instance source. -/
def composedState (specs : List (Option Bool)) (inst : Option Bool) : Option Bool :=
  (specs.findSome? id).or inst

end Nxt.Spec
