import Verif.Model.LayerData
import Verif.Spec.Inherit
import Verif.Spec.NodeData
/-!
# Specification vocabulary for stages saved and opened again
-/
namespace Nxt.Spec
open Dict

/-- The layers of a stage saved and opened again: each loads what was saved of its nodes. -/
inductive Reopened (builtins : List Str) : List Comp.LayerNodes → List Comp.LayerNodes → Prop
  | nil : Reopened builtins [] []
  | cons {file : Option Str} {T T' : Comp.LayerNodes} {ls ls' : List Comp.LayerNodes} :
      LayerData.constructNodes file (LayerData.nodesSaveData builtins T) = some T' → Reopened builtins ls ls' →
      Reopened builtins (T :: ls) (T' :: ls')

/-- The same value, or two which are no opinions. -/
def Alike (v w : Val) : Prop := v = w ∨ (v.hasOpinion = false ∧ w.hasOpinion = false)

end Nxt.Spec
