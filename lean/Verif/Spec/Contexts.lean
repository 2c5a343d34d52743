import Verif.Model.Contexts
/-!
# Specification: calls of remote contexts
-/
namespace Nxt.Spec
open Contexts

/-- An absolute path. -/
def Absolute (p : Str) : Prop := ∃ t, p = '/' :: t

/-- The context of that name: the first one registered with it. -/
def FirstNamed (cs : List Context) (name : Str) (c : Context) : Prop :=
  ∃ before after, cs = before ++ c :: after ∧ c.name = name ∧ ∀ x ∈ before, x.name ≠ name

/-- The parameters a call should set. -/
def callParams (file cache : Str) (params start : Option Str) : List (Str × Str) :=
  [("/.graph_file".toList, file), ("/.cache_file".toList, cache)] ++
    (params.map (fun p => ("/.parameters_file".toList, p))).toList ++
    (start.map (fun s => ("/enter/call_graph._start".toList, s))).toList

/-- Going from a directory along a relative path, component by component. -/
def follow (dir : List Str) (path : List Str) : List Str :=
  path.foldl (fun d c => if c = "..".toList then d.dropLast else if c = ".".toList then d else d ++ [c]) dir

end Nxt.Spec
