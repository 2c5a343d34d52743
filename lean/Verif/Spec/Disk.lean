import Verif.Model.LayerData
import Verif.Spec.FilePaths
/-!
# Specification: graph files
-/
namespace Nxt.Spec
open Dict

/-- `p` is `stem` with one of the two extensions of graph files; the base name of the stem is not made
of dots only. -/
def GraphFile (p stem : Str) : Prop :=
  (p = stem ++ ".nxt".toList ∨ p = stem ++ ".nxtb".toList) ∧ ∃ b, IsBase stem b ∧ ∃ c ∈ b, c ≠ '.'

/-- A value with something in it JSON cannot hold. -/
inductive Unwritable : Val → Prop
  | obj (id : Nat) (t : Bool) : Unwritable (.other id t false)
  | item {l : List Val} {v : Val} : v ∈ l → Unwritable v → Unwritable (.list l)
  | entry {d : List (Str × Val)} {k : Str} {v : Val} : (k, v) ∈ d → Unwritable v → Unwritable (.dict d)

/-- A value JSON gives back as it was: no tuples, no objects it cannot hold, distinct keys. -/
inductive Lossless : Val → Prop
  | none : Lossless .none
  | bool (b : Bool) : Lossless (.bool b)
  | num (n : Int) : Lossless (.num n)
  | str (s : Str) : Lossless (.str s)
  | obj (id : Nat) (t : Bool) : Lossless (.other id t true)
  | list {l : List Val} : (∀ v ∈ l, Lossless v) → Lossless (.list l)
  | dict {d : List (Str × Val)} : Ok d → (∀ k v, (k, v) ∈ d → Lossless v) → Lossless (.dict d)

/-- A layer made of values JSON gives back as they were.  The sources of attributes, which are tuples,
are not saved. -/
structure Storable (s : LayerData.LayerState) : Prop where
  color : Lossless s.color
  overs : Lossless (.dict s.overs)
  input : Lossless (.dict s.md.input)
  own : ∀ k, Lossless (.dict (s.md.own k))
  nodes : ∀ p n, (p, n) ∈ s.nodes → ∀ a v, (a, v) ∈ n → (∀ x, a ≠ x ++ "_source__nxt".toList) → Lossless v

/-- The entries which tell where a file was found. -/
def locationKeys : List Str := ["filepath", "real_path", "name"].map String.toList

end Nxt.Spec
