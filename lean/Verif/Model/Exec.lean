import Verif.Model.Children
/-!
# Model of execution order and of the execution loop (nxt/nxt_layer.py, nxt/stage.py)
-/
namespace Nxt.Exec
open Dict Tree

/-- nxt_layer.py:613-623, the `for` loop over the roots: the first whose `execute_in` is `prev`.  The
children of the world are always found by scanning; `'/'` is a unique object. -/
def nextRoot (nodes : Nodes) (prev : Str) : Option Str :=
  ((scan (fun a b => a = b) nodes Path.WORLD).find?
    (fun e => match e.2.execIn with | .str s => s = prev | _ => false)).map (fun e => e.1)

/-- nxt_layer.py:612-625, the `while` loop, at most `fuel` rounds. -/
def rootLoop (nodes : Nodes) : Nat → Str → List Str → Option (List Str)
  | 0, _, _ => none
  | fuel + 1, prev, order =>
    match nextRoot nodes prev with
    | some q => rootLoop nodes fuel q (order ++ [q])
    | none => some order

/-- nxt_layer.py:609-626 `get_root_exec_order`. -/
def rootOrder (nodes : Nodes) (fuel : Nat) (start : Str) : Option (List Str) := rootLoop nodes fuel start [start]

/-- nxt_layer.py:579-582: the enabled state of the node at a path, `True` without opinion. -/
def isEnabled (nodes : Nodes) (p : Str) : Bool :=
  match get? p nodes with
  | none => true
  | some n => match n.enabled with
    | .none => true
    | v => v.truthy

/-- The variables of the inner loop: `start_found`, `disabled_desc`, `exec_order`. -/
structure Scan where
  found : Bool
  disabled : List Str
  order : List Str

/-- nxt_layer.py:591-606, one descendant. -/
def descStep (nodes : Nodes) (start : Str) (s : Scan) (d : Str) : Scan :=
  let found := if !s.found ∧ d = start then true else s.found
  let enabled := isEnabled nodes d
  let enabled := if enabled then !(s.disabled.any (fun a => Path.isAncestor d a)) else false
  if !enabled then { s with found := found, disabled := s.disabled ++ [d] }
  else { s with found := found, order := if found then s.order ++ [d] else s.order }

/-- nxt_layer.py:575-606, one root: `start_found` and `exec_order`.  `none`: the listing of descendants
failed. -/
def rootStep (nodes : Nodes) (desc : Str → Option (List Str)) (start : Str) (st : Bool × List Str) (root : Str) :
    Option (Bool × List Str) :=
  let found := if !st.1 ∧ root = start then true else st.1
  if found ∧ !isEnabled nodes root then some (found, st.2)
  else
    let order := if found then st.2 ++ [root] else st.2
    match desc root with
    | none => none
    | some ds =>
      let s := ds.foldl (descStep nodes start) ⟨found, [], order⟩
      some (s.found, s.order)

/-- nxt_layer.py:568-607 `get_exec_order`. -/
def execOrder (nodes : Nodes) (kids : Str → Nodes) (fuel : Nat) (start : Str) : Option (List Str) :=
  if start = Path.WORLD then some []
  else match rootOrder nodes fuel (Path.rootPath start) with
    | none => none
    | some roots =>
      (roots.foldlM (rootStep nodes (descendantsOrdered nodes kids false fuel) start) (false, [])).map (fun s => s.2)

/-! ### Timings -/

/-- One run of a node: path, enter time, exit time.  nxt_layer.py:997-1000 puts the same entry object into
`node_times` and into the list of its path in `node_time_map`, so the latter is a part of the former. -/
abbrev Times := List (Str × Int × Option Int)

/-- `node_time_map[node_path]`. -/
def runsOf (ts : Times) (p : Str) : List (Int × Option Int) := (ts.filter (fun e => e.1 = p)).map (fun e => e.2)

/-- nxt_layer.py:994-1001 `set_node_enter_time`; `t` is the time recorded. -/
def enter (ts : Times) (p : Str) (t : Int) : Times := ts ++ [(p, t, none)]

/-- nxt_layer.py:1010-1014: closes the first open run of the path. -/
def closeFirst (p : Str) (t : Int) : Times → Option Times
  | [] => none
  | (q, a, b) :: ts =>
    if q = p ∧ b = none then some ((q, a, some t) :: ts) else (closeFirst p t ts).map ((q, a, b) :: ·)

/-- What can go wrong with timings. -/
inductive TimeErr where
  | keyError | valueError | typeError
deriving DecidableEq

/-- nxt_layer.py:1003-1016 `set_node_exit_time`.  A path without runs raises `KeyError` (line 1008 expects
`IndexError`). -/
def exit (ts : Times) (p : Str) (t : Int) : Except TimeErr Times :=
  match closeFirst p t ts with
  | some ts' => .ok ts'
  | none => if runsOf ts p = [] then .error .keyError else .error .valueError

/-- nxt_layer.py:1018-1024 `get_node_run_time` of the last run; an open run gives `None - float`. -/
def runTime (ts : Times) (p : Str) : Except TimeErr Int :=
  match (runsOf ts p).getLast? with
  | none => .error .valueError
  | some (_, none) => .error .typeError
  | some (a, some b) => .ok (b - a)

/-- nxt_layer.py:981-992 `was_during_node_exec`.  A comparison with `None` would be a `TypeError` (`none`). -/
def wasDuring (ts : Times) (t : Int) : Option Bool :=
  go ts.reverse
where
  go : Times → Option Bool
    | [] => some false
    | (_, a, b) :: rest =>
      if t ≥ a ∧ b = none then some true
      else if a ≤ t then
        match b with
        | none => none
        | some b => if t ≤ b then some true else go rest
      else go rest

/-- A history of calls of `set_node_enter_time` (`false`) and `set_node_exit_time` (`true`) with path and
time. -/
def playTimes (es : List (Bool × Str × Int)) (ts : Times) : Except TimeErr Times :=
  es.foldlM (fun ts e => if e.1 then exit ts e.2.1 e.2.2 else .ok (enter ts e.2.1 e.2.2)) ts

/-! ### The loop over the nodes -/

/-- How the code of a node ends. -/
inductive Outcome where
  | ok | exitNode | exitGraph | error
deriving DecidableEq

/-- How the loop ends. -/
inductive End where
  | done | exitGraph | error | invalidNode | timeError
deriving DecidableEq

/-- stage.py:3820-3847, the loop of `execute_nodes`.  `σ` is the state of the runtime layer: `look` tells
whether a node exists and its enabled value; `run` runs the code of a node, which may change the state and
record further runs; `clock` is read from the state.  The last component lists the nodes run. -/
def execLoop {σ : Type} (look : σ → Str → Option Val) (run : Str → σ → Times → Outcome × σ × Times)
    (clock : σ → Int) : List Str → σ → Times → End × σ × Times × List (Str × Outcome)
  | [], s, ts => (.done, s, ts, [])
  | p :: ps, s, ts =>
    match look s p with
    | some (.bool false) => execLoop look run clock ps s ts
    | none => (.invalidNode, s, ts, [])
    | some _ =>
      let r := run p s (enter ts p (clock s))
      match exit r.2.2 p (clock r.2.1) with
      | .error _ => (.timeError, r.2.1, r.2.2, [(p, r.1)])
      | .ok ts' =>
        match runTime ts' p with
        | .error _ => (.timeError, r.2.1, ts', [(p, r.1)])
        | .ok _ =>
          match r.1 with
          | .exitGraph => (.exitGraph, r.2.1, ts', [(p, r.1)])
          | .error => (.error, r.2.1, ts', [(p, r.1)])
          | _ =>
            let rest := execLoop look run clock ps r.2.1 ts'
            (rest.1, rest.2.1, rest.2.2.1, (p, r.1) :: rest.2.2.2)

end Nxt.Exec
