import Verif.Model.FilePaths
/-!
# Specifications for file paths
-/
namespace Nxt.Spec
open FilePaths

/-- The first depth from `first` on which has this value. -/
def FirstDepth (value : Nat → Option Str) (first last d : Nat) : Prop :=
  first ≤ d ∧ d < last ∧ ∃ v, value d = some v ∧ v ≠ [] ∧ ∀ d', first ≤ d' → d' < d → value d' ≠ some v

/-- A text written as pieces: each piece is plain text followed by a variable, then comes the rest. -/
def winText (ps : List (Str × Str)) (tail : Str) : Str :=
  (ps.map (fun p => p.1 ++ ('%' :: p.2 ++ ['%']))).flatten ++ tail

/-- The same pieces with variables in the other form. -/
def nixText (ps : List (Str × Str)) (tail : Str) : Str :=
  (ps.map (fun p => p.1 ++ '$' :: p.2)).flatten ++ tail

/-- Only letters and underscores. -/
def VarName (v : Str) : Prop :=
  ∀ c ∈ v, c ∈ "abcdefghijklmnopqrstuvwxyzABCDEFGHIJKLMNOPQRSTUVWXYZ_".toList

/-- The part of a path after its last slash. -/
def IsBase (p b : Str) : Prop := '/' ∉ b ∧ (p = b ∨ ∃ dir, p = dir ++ '/' :: b)

end Nxt.Spec
