import Verif.Model.Py
/-!
# Specification for merging namespaces (C133)
-/
namespace Nxt.Spec

/-- The target ends with the inner names of the source: those but the first and the last. -/
def Overlaps (source target : List Str) : Prop := source.tail.dropLast ≠ [] ∧ source.tail.dropLast <:+ target

instance (s t : List Str) : Decidable (Overlaps s t) := by unfold Overlaps; infer_instance

/-- The result of a merge: it begins where the target begins and ends where the source ends. -/
def Joins (source target result : List Str) : Prop := result.head? = target.head? ∧ result.getLast? = source.getLast?

end Nxt.Spec
