import Verif.Model.Setup
import Verif.Spec.Exec
import Verif.Spec.Flow
/-!
# Specification of preparing a layer for an execution
-/
namespace Nxt.Spec
open Dict

/-- The names code finds at the start. -/
def consoleNames : List Str :=
  ["STAGE", "__stage__", "nxt_path", "w", "types", "self", "execute", "ExitNode", "ExitGraph"].map String.toList

/-- What the table of the node at `p` has for `a` when an execution starts: the parameter for it, its path, or what
it had before. -/
def startValue {V : Type} (text : V → Str) (ps : Dict Rt.Key V) (p a : Str) (before : Option Val) : Option Val :=
  let rest := if a = "_node_path".toList ∧ p ≠ "/".toList then some (.str p) else before
  if a = [] ∨ '.' ∈ a then rest
  else match get? (Rt.Key.str (p ++ ".".toList ++ a)) ps with
    | some v => some (.str (text v))
    | none => rest

/-- Among the runs `tr` from the state `s` is one of a node whose code, as it was then, has a line with the text
`global <k>` which is no comment. -/
def MentionedBy (e : Flow.Env) (nodes : Dict Str Nat) (s : Flow.State) (tr : List (Str × Exec.Outcome)) (k : Str) : Prop :=
  ∃ tr1 p o tr2 s1 c l, tr = tr1 ++ (p, o) :: tr2 ∧ RunChain (Flow.runAt e nodes) s tr1 s1 ∧ get? p nodes = some c ∧
    l ∈ e.lines (e.code s1.classes c) ∧ Counts l ∧ Occurs ("global ".toList ++ k) l

end Nxt.Spec
