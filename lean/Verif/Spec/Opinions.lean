import Verif.Model.Opinions
/-!
# Specification for questions about opinions and attribute names
-/
namespace Nxt.Spec
open Opinions Dict Mro

/-- A name shown to the user: not one of those used by nodes, and not one of a meta attribute. -/
def Shown (prot : List Str) (a : Str) : Prop := a ∉ prot ∧ Py.endsWith a "__nxt".toList = false

/-- The nearest node at a path or above it. -/
inductive Nearest (E : Env) : Str → Str → Prop
  | here {p : Str} : E.there p = true → Nearest E p p
  | up {p q : Str} : E.there p = false → p ≠ ['/'] → Nearest E (Path.parentPath p) q → Nearest E p q

/-- A node has the names local to it, those of the nearest node above, and those of its instance source: its base classes
(`C104_dir`). -/
structure NamesOk (E : Env) : Prop where
  shown : ∀ p, ∀ a ∈ E.loc p, Shown E.prot a
  names : ∀ p, E.there p = true → ∀ a, Shown E.prot a → (a ∈ E.names p ↔ a ∈ E.loc p ∨
    (∃ q, Nearest E (E.parent p) q ∧ a ∈ E.names q) ∨ ∃ i, E.inst p = some i ∧ E.there i = true ∧ a ∈ E.names i)

/-- An attribute held by a class itself, with its source. -/
def Holds (g : Classes) (a : Str) (d : Nat) (s v : Val) : Prop :=
  get? a (g.own d) = some v ∧ get? (a ++ "_source__nxt".toList) (g.own d) = some s

/-- The classes whose opinion on an attribute counts: all for attributes of the user; for internal ones the nodes by the instance
arc, and by the reference arc for the six attributes composed by it. -/
def Consulted (internal : Bool) (node : Nat → Bool) (arc : Nat → Option Targeted.Arc) (a : Str) (b : Nat) : Prop :=
  internal = false ∨ (node b = true ∧ (arc b = some .inst ∨ (arc b = some .reference ∧
    a ∈ ["_start_point", "_enabled", "_execute_in", "_instance", "_comment", "_code"].map String.toList)))

/-- Every class which holds the attribute holds its source, and the other way round. -/
def Sourced (g : Classes) (a : Str) : Prop :=
  ∀ d, (get? a (g.own d)).isSome = (get? (a ++ "_source__nxt".toList) (g.own d)).isSome

end Nxt.Spec
