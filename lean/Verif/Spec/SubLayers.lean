import Verif.Model.SubLayers
/-!
# Specification of adding and removing layers
-/
namespace Nxt.Spec
open SubLayers

/-- Layers referenced by layer `k`, directly or through other layers. -/
inductive LayReach (S : Stg) (k : Nat) : Nat → Prop
  | refl : LayReach S k k
  | step {m j : Nat} (h : LayReach S k m) (file : Str) (hr : ⟨file, some j⟩ ∈ (S.lay m).refs) : LayReach S k j

/-- Every layer of the stage knows its place. -/
def Indexed (S : Stg) : Prop := ∀ i k, S.stack[i]? = some k → (S.lay k).idx = i

/-- All references of layers of the stage are to loaded layers. -/
def Known (S : Stg) : Prop := ∀ j ∈ S.stack, ∀ r ∈ (S.lay j).refs, r.layer ≠ none

/-- What every removal of layers does: it only takes away, and what it takes from the layers left are
references to layers taken away. -/
structure TakenAway (k : Nat) (S S' : Stg) : Prop where
  stack : S'.stack.Sublist S.stack
  file : ∀ j, (S'.lay j).file = (S.lay j).file
  real : ∀ j, (S'.lay j).real = (S.lay j).real
  parent : ∀ j, (S'.lay j).parent = (S.lay j).parent
  refs : ∀ j, (S'.lay j).refs.Sublist (S.lay j).refs
  paths : ∀ j, (S'.lay j).paths.Sublist (S.lay j).paths
  /-- nothing but layers referenced by `k` -/
  only : ∀ m ∈ S.stack, m ∉ S'.stack → LayReach S k m
  /-- no references to layers taken away are left -/
  clean : ∀ m ∈ S.stack, m ∉ S'.stack → ∀ j ∈ S'.stack, ⟨(S.lay m).file, some m⟩ ∉ (S'.lay j).refs ∧
    ((S.lay j).paths.Nodup → (S.lay m).file ∉ (S'.lay j).paths)
  /-- other references are left -/
  kept : ∀ j ∈ S'.stack, ∀ r ∈ (S.lay j).refs, r ∉ (S'.lay j).refs →
    ∃ m, m ∉ S'.stack ∧ LayReach S k m ∧ r = ⟨(S.lay m).file, some m⟩
  keptPaths : ∀ j ∈ S'.stack, ∀ p ∈ (S.lay j).paths, p ∉ (S'.lay j).paths →
    ∃ m, m ∉ S'.stack ∧ LayReach S k m ∧ p = (S.lay m).file

/-- Every second element, beginning with the first. -/
def everySecond : List Nat → List Nat
  | [] => []
  | [x] => [x]
  | x :: _ :: l => x :: everySecond l

/-- The references of a layer and its list of paths say the same. -/
def Aligned (l : Lay) : Prop := l.refs.map (·.file) = l.paths

end Nxt.Spec
