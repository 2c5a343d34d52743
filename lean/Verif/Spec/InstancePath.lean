import Verif.Model.Path
/-!
# Specification vocabulary for instance paths
-/
namespace Nxt.Spec

/-- The path a node is an instance of, given what its layers say about it, strong to weak: the first which says anything
decides, and its text is read relative to the node. -/
def effective {L : Type} (specs : List (L × Option Str)) (path : Str) : Option Str :=
  match specs.findSome? Prod.snd with
  | none => none
  | some p => Path.expandRelative (some p) path

/-- What the layers say after one of them says something else. -/
def saying {L : Type} [DecidableEq L] (specs : List (L × Option Str)) (target : L) (given : Option Str) : List (L × Option Str) :=
  specs.map (fun s => if s.1 = target then (target, given) else s)

end Nxt.Spec
