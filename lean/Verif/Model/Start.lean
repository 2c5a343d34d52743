import Verif.Model.Exec
/-!
# Model of where an execution starts (nxt/stage.py)

Simplifications: the composed layer is given by its nodes and their start points; the runtime layer which
`execute_nodes` builds from it is the first state of the loop, see `Verif.Model.Exec`; parameters are the subject
of `Verif.Model.Runtime`.
-/
namespace Nxt.Start
open Dict Tree Exec

/-- The argument `start`: a text, or any other value. -/
inductive Arg where
  | path (p : Str)
  | other (v : Val)

/-- `if start` in Python. -/
def Arg.truthy : Arg → Bool
  | .path p => !p.isEmpty
  | .other v => v.truthy

/-- stage.py:3925-3928 `get_layer_start_nodes`, with nxt_layer.py:489-495: nodes in the order of the layer, without
the world; `point` is the start point attribute of a node. -/
def startNodes (nodes : Nodes) (point : Str → Val) : List Str :=
  ((nodes.filter (fun e => e.1 ≠ Path.WORLD)).filter (fun e => (point e.1).truthy)).map (fun e => e.1)

/-- Errors before anything is run: no such start node, no start node at all, no order (the search for it does not
end or fails). -/
inductive Err where
  | notFound | noStart | noOrder
deriving DecidableEq

/-- stage.py:3779-3789: the path to start from. -/
def startPath (nodes : Nodes) (point : Str → Val) : Arg → Except Err Str
  | .path p => if p ∈ keys nodes then .ok p else .error .notFound
  | .other _ =>
    match startNodes nodes point with
    | [] => .error .noStart
    | p :: _ => .ok p

/-- stage.py:3776-3791 `execute`, in a layer with nodes `nodes`; `s` and `ts` are the runtime layer and its times. -/
def execute {σ : Type} (nodes : Nodes) (kids : Str → Nodes) (point : Str → Val) (fuel : Nat)
    (look : σ → Str → Option Val) (run : Str → σ → Times → Outcome × σ × Times) (clock : σ → Int) (start : Arg)
    (s : σ) (ts : Times) : Except Err (End × σ × Times × List (Str × Outcome)) :=
  match startPath nodes point start with
  | .error e => .error e
  | .ok p =>
    match execOrder nodes kids fuel p with
    | none => .error .noOrder
    | some order => .ok (execLoop look run clock order s ts)

/-- The argument `paths` of the helper given to code. -/
inductive Paths where
  | seq (ps : List Str)
  | other (v : Val)

/-- `if paths` in Python. -/
def Paths.truthy : Paths → Bool
  | .seq ps => !ps.isEmpty
  | .other v => v.truthy

/-- What the helper does. -/
inductive Call where
  | valueError
  | fromStart (a : Arg)
  | nodes (ps : List Str)

/-- stage.py:3986-3995, the function `execute` which code can call. -/
def helper (paths : Paths) (start : Arg) : Call :=
  match paths with
  | .other _ => .valueError
  | .seq ps =>
    if (paths.truthy ∧ start.truthy) ∨ (!paths.truthy ∧ !start.truthy) then .valueError
    else if start.truthy then .fromStart start
    else .nodes ps

/-- How running custom code ends. -/
inductive CustomEnd where
  | done | returned (o : Outcome) | raised | timeError

/-- stage.py:3849-3870 `execute_custom_code` on a node of the runtime layer; `run` runs the resolved code. -/
def custom {σ : Type} (run : Str → σ → Times → Outcome × σ × Times) (clock : σ → Int) (p : Str) (s : σ) (ts : Times) :
    CustomEnd × σ × Times :=
  let r := run p s (enter ts p (clock s))
  match exit r.2.2 p (clock r.2.1) with
  | .error _ => (.timeError, r.2.1, r.2.2)
  | .ok ts' =>
    match r.1 with
    | .ok => (.done, r.2.1, ts')
    | .error => (.raised, r.2.1, ts')
    | o => (.returned o, r.2.1, ts')

end Nxt.Start
