import Verif.Spec.Resolve
/-!
# Specification vocabulary for the references in a value
-/
namespace Nxt.Spec

/-- The text has exactly these tokens, none of them within another. -/
def FlatTokens (text : Str) (ts : List Str) : Prop := Parse text ts true ∧ ∀ t ∈ ts, IsAtomic t

/-- The last part of a path is a name. -/
def EndsNamed (p : Str) : Prop :=
  ∃ u x, (p = x ∨ p = u ++ ['/'] ++ x) ∧ '/' ∉ x ∧ x ≠ [] ∧ x ≠ ['.'] ∧ x ≠ ['.', '.']

/-- A reference to an attribute of a node, whose node is given from the root on or by a name. -/
def Spelled (r : Str) : Prop :=
  ∃ p a, SplitRef r p a ∧ '/' ∉ a ∧ ((∃ s, p = '/' :: s) ∨ EndsNamed p)

end Nxt.Spec
