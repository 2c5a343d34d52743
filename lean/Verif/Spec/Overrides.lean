import Verif.Model.Overrides
/-!
# Specification of mute and solo overrides
-/
namespace Nxt.Spec
open Overrides Dict

variable {K : Type} [DecidableEq K]

/-- The layer `i` is the layer `j` or one of the layers above it. -/
inductive UpTo (layers : List (ORec K)) : Nat → Nat → Prop
  | self (i : Nat) (l : ORec K) : layers[i]? = some l → UpTo layers i i
  | step (j p i : Nat) (l : ORec K) : layers[j]? = some l → l.parent = some p → UpTo layers p i → UpTo layers j i

/-- What a stage looks like while it is used: parents come before their sub layers, the tables are dicts with small
dicts in the heap, and no small dict is used for two paths. -/
structure WellKept (s : OStage K) : Prop where
  parents : ∀ (i : Nat) (l : ORec K) (p : Nat), s.layers[i]? = some l → l.parent = some p → p < i
  tables : ∀ (i : Nat) (l : ORec K), s.layers[i]? = some l → Ok l.overs
  cells : ∀ (i : Nat) (l : ORec K) (k : K) (c : Nat), s.layers[i]? = some l → get? k l.overs = some c → c < s.heap.length
  onePath : ∀ (i j : Nat) (l m : ORec K) (k k' : K) (c : Nat), s.layers[i]? = some l → s.layers[j]? = some m →
    get? k l.overs = some c → get? k' m.overs = some c → k = k'

/-- The layer at `i` holds an override entry for the path, saying `o`. -/
def HoldsOver (s : OStage K) (i : Nat) (fp : K) (o : Layer.Over) : Prop :=
  ∃ (l : ORec K) (c : Nat), s.layers[i]? = some l ∧ get? fp l.overs = some c ∧ s.heap[c]? = some o

/-- Some layer at or above `i` holds an entry for the path. -/
def SaidAbove (s : OStage K) (i : Nat) (fp : K) : Prop :=
  ∃ j o, UpTo s.layers i j ∧ HoldsOver s j fp o

end Nxt.Spec
