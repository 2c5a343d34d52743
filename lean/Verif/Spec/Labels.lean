import Verif.Model.Labels
/-!
# Specification: the labels of the layers of a stage
-/
namespace Nxt.Spec
open Dict Labels

/-- The layers of a stage: the first is the top, every other one has a parent above it. -/
def OneTop {K : Type} (layers : List (Labelled K)) : Prop :=
  ∀ i l, layers[i]? = some l → (i = 0 → l.parent = none) ∧ (i ≠ 0 → ∃ p, l.parent = some p ∧ p < i)

/-- The tables of all layers are dicts. -/
def LabelTables {K : Type} [DecidableEq K] (layers : List (Labelled K)) : Prop :=
  ∀ l ∈ layers, Ok l.tables.aliases ∧ Ok l.tables.colors ∧ Ok l.tables.locks

/-- The layers from a layer up to the top. -/
inductive ReachesUp {K : Type} (layers : List (Labelled K)) : Nat → Nat → Prop
  | self (i : Nat) : ReachesUp layers i i
  | up (i p j : Nat) (l : Labelled K) : layers[i]? = some l → l.parent = some p → ReachesUp layers p j → ReachesUp layers i j

/-- What is seen of a label: the entry for the path of the layer in the uppermost layer having one, among the layer
and those above it; else its own, if that is asked for. -/
def SeenLabel {K V : Type} [DecidableEq K] (tab : Layer.Tables K → Dict K V) (own : Labelled K → Option V)
    (layers : List (Labelled K)) (i : Nat) (fallback : Bool) (v : Option V) : Prop :=
  ∃ l, layers[i]? = some l ∧
    ((∃ j t x, ReachesUp layers i j ∧ layers[j]? = some t ∧ get? l.path (tab t.tables) = some x ∧ v = some x ∧
        ∀ k t', ReachesUp layers j k → k ≠ j → layers[k]? = some t' → get? l.path (tab t'.tables) = none) ∨
     ((∀ j t, ReachesUp layers i j → layers[j]? = some t → get? l.path (tab t.tables) = none) ∧
        v = if fallback then own l else none))

end Nxt.Spec
