import Verif.Model.Py
import Verif.Model.Value
/-!
# Model of the code and the enabled state of nodes

`get_node_code_lines`, `get_node_code_string`, `get_node_code`, `set_node_code_lines`, `set_node_enabled`
(nxt/stage.py).

Code lines are Python lists shared between nodes: composition hands the list object of a spec on to the composite
node and from there to its instances (stage.py:2742, 3167), and setting code changes the list of the spec in place.  So
lists have addresses.  Each spec keeps its list; its address stands for the spec.
-/
namespace Nxt.Code
open Py

/-! ### Reading -/

/-- stage.py:2377-2383: `resolve` may give several lines. -/
def resolvedLines (resolve : Str → Str) (lines : List Str) : List Str := lines.flatMap (fun l => split '\n' (resolve l))

/-- stage.py:2308-2325 `get_node_code_string`. -/
def codeString (lines : List Str) : Str := join ['\n'] lines

/-- stage.py:2344-2347, the line put before the code. -/
def BLANK : Str := "# Blank Line".toList

/-- stage.py:2338-2361 `get_node_code`: the line reported for a syntax error.  `check` is the compiler: the number of the
line with the error, counted from 1.  Without custom code a line is put before the code. -/
def errorLine (check : List Str → Option Nat) (custom : Option (List Str)) (lines : List Str) : Option Nat :=
  match custom with
  | some c => (check c).map (· - 1)
  | none => (check (BLANK :: lines)).map (· - 1)

/-! ### Setting code -/

/-- The composite nodes: those which are there, and the specs of each, strong to weak. -/
structure Layout where
  there : Str → Bool
  refs : Str → List Nat

/-- The lists of lines, and the list each composite node has of its own. -/
structure St where
  heap : Nat → List Str
  own : Str → Option Nat

/-- `getattr(comp_node, INTERNAL_ATTRS.COMPUTE)`: its own list, or that of its strongest spec. -/
def addr (L : Layout) (S : St) (p : Str) : Nat := (S.own p).getD ((L.refs p).headD 0)

/-- `setattr(comp_node, INTERNAL_ATTRS.COMPUTE, a)`. -/
def setOwn (S : St) (p : Str) (a : Nat) : St := { S with own := fun q => if q = p then some a else S.own q }

/-- stage.py:2411-2428, the loop over the dependent nodes; every `break` ends it. -/
def spread (L : Layout) (live : Nat) : List Str → St → St
  | [], S => S
  | d :: ds, S =>
    if ¬ L.there d then S
    else if ∃ r ∈ L.refs d, S.heap r ≠ [] then S
    else if live = addr L S d ∧ S.heap (addr L S d) ≠ [] then S
    else spread L live ds (setOwn S d live)

/-- stage.py:2390-2408: the list the composite node gets; `inst` is the list of the instance source. -/
def chosen (L : Layout) (heap : Nat → List Str) (p : Str) (s : Nat) (lines : List Str) (inst : Option Nat) : Nat :=
  if lines = [] then
    match inst with
    | some i => i
    | none => ((L.refs p).find? (fun r => heap r ≠ [])).getD s
  else s

/-- stage.py:2385-2429 `set_node_code_lines` for the spec `s` of the node at `p`; `inst` is the path of its instance source
when that is there.  `lines` is no list of the stage. -/
def setCode (L : Layout) (S : St) (p : Str) (s : Nat) (lines : List Str) (inst : Option Str) (dirties : List Str) : St :=
  let i := inst.map (addr L S)
  let S' := { S with heap := fun a => if a = s then lines else S.heap a }
  let new := chosen L S'.heap p s lines i
  if addr L S' p ≠ s ∨ lines = [] then spread L new dirties (setOwn S' p new)
  else spread L s dirties S'

/-! ### Setting the enabled state -/

/-- What is read of a class of the resolution order: whether it is one of those left out (line 3906), its path and its
enabled state. -/
structure Infl where
  skip : Bool
  path : Str
  state : Option Bool

/-- stage.py:3903-3915 `update_it`. -/
def updates (path : Str) (state : Option Bool) (mro : List Infl) : Bool :=
  mro.all (fun n => n.skip || contains path n.path || (n.state.isNone || n.state == state))

/-- stage.py:3887-3922 `set_node_enabled` for a composite node which is there, with all dependent nodes there: the states of
the composite nodes. -/
def setEnabled (path : Str) (state : Option Bool) (mro : List Infl) (dirties : List Str) (f : Str → Option Bool) : Str → Option Bool :=
  if updates path state mro then fun q => if q = path ∨ q ∈ dirties then state else f q else f

end Nxt.Code
