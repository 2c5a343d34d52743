import Verif.Model.Rpc
/-!
# Specification: the rpc server around an execution
-/
namespace Nxt.Spec
open Rpc

/-- The execution asks for a server: it is in a context, or a layer has a node for sub-graphs. -/
def AsksServer : Job → Prop
  | .remote _ => True
  | .graph layers _ | .nodes layers _ _ =>
    ∃ l ∈ layers, "/_remote_sub_graph".toList ∈ l ∨ "/_sub_graph".toList ∈ l

/-- What has been executed raises by itself. -/
def JobFails : Job → Bool
  | .remote f => f
  | .graph _ f => f
  | .nodes _ _ f => f

/-- The stage is built. -/
def Builds : Job → Prop
  | .nodes _ b _ => b = false
  | _ => True

/-- The server comes up within four seconds. -/
def Prompt (delay : Option Nat) : Prop := ∃ d, delay = some d ∧ d < 5

/-- All processes have numbers given out. -/
def Numbered (w : World) : Prop := ∀ p ∈ w.procs, p < w.nextPid

/-- The worlds agree but for the numbers given out. -/
def SameWorld (w w' : World) : Prop :=
  w'.server = w.server ∧ w'.foreign = w.foreign ∧ w'.procs = w.procs ∧ w'.standalone = w.standalone ∧
    w'.verbose = w.verbose

end Nxt.Spec
