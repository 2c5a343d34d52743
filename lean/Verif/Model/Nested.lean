import Verif.Model.Runtime
import Verif.Model.Code
/-!
# Model of node code which executes other nodes, and of the errors it reports (nxt/stage.py, nxt/runtime.py)

Node code may call `execute` (stage.py:3986-3995), which runs further nodes on the same runtime layer and with
the same console, while the code of the calling node is still running.

A piece of code is a list of lines, each with its text and what it does.  `W` is the state of the runtime
layer, `F` the values of a frame (the object `self` of a run), `V` the values of global variables.

Simplifications: a statement is one line; code gets at its node through `self` only and assigns neither `self`
nor the names of stage.py:3997-4006; `self` is kept apart from the other globals; reading the attributes of a
node, resolving its code and applying parameters raise no exception; `paths` is a list or tuple; a call in a
`try` statement stands for `try: execute(...)` with `except Exception: pass`.  The limit of Python on the depth of calls is
a number of nested calls of `execute`.
-/
namespace Nxt.Nested
open Py Dict

/-- The head of an error message: `File "…", line …, in <node path>` and the text of the line (runtime.py:99).
The file is the same for all. -/
structure Report where
  path : Str
  line : Nat
  text : Str
deriving DecidableEq

/-- How running something ends.  The message of an error made from another error has the message of that one
at its end (runtime.py:102): an error has the reports in its message, outermost first.  `interrupt` stands for
`KeyboardInterrupt`. -/
inductive Res where
  | ok | exitNode | exitGraph | interrupt
  | error (reports : List Report)
deriving DecidableEq

/-- How a plain statement ends. -/
inductive End where
  | ok | exitNode | exitGraph | interrupt | raised
deriving DecidableEq

/-- An exception raised by a statement has no report yet. -/
def End.res : End → Res
  | .ok => .ok
  | .exitNode => .exitNode
  | .exitGraph => .exitGraph
  | .interrupt => .interrupt
  | .raised => .error []

/-- A statement: something done with the frame of `self` and the globals, or a call of `execute`. -/
inductive Stmt (W F V : Type) where
  | work (f : F → Dict Str V → F × Dict Str V × End)
  | call (caught : Bool) (params : W → W) (paths : List Str) (start : Str)

/-- A line of code. -/
structure Line (W F V : Type) where
  text : Str
  does : Stmt W F V

/-- What does not change: finding a node with its enabled state, the values of its frame, pushing changed
values of a frame back to the node (stage.py:4115-4122), its code (`error n`: the compiler complains about line `n`),
the execution order from a node (`none`: an exception), the clock. -/
structure Env (W F V : Type) where
  look : W → Str → Option Val
  load : W → Str → F
  store : Str → F → F → W → W
  code : W → Str → Except Nat (List (Line W F V))
  order : W → Str → Option (List Str)
  clock : W → Int

/-- What is recorded for the statements of properties: the run of a node begins, the run of a node ends in
some way. -/
inductive Event where
  | begun (p : Str)
  | ended (p : Str) (r : Res)
deriving DecidableEq

/-- The runtime layer with its console: `path`, `lines` are `node_path`, `running_lines` of the console, `self` the
frame in the globals, a place in `frames`, which has every frame made so far with the path of its node.  The
cache layer has the last frame of each path (stage.py:4093). -/
structure St (W F V : Type) where
  world : W
  globals : Dict Str V
  path : Str
  lines : List Str
  self : Nat
  frames : List (Str × F)
  running : Bool
  times : Exec.Times
  trace : List Event

variable {W F V : Type}

/-! ### Reporting errors -/

/-- runtime.py:70-73: `running_lines[lineno-1]`; line number 0 gives the last line. -/
def locate (lines : List Str) (lineno : Nat) : Str :=
  ((if lineno = 0 then lines.getLast? else lines[lineno - 1]?)).getD "LINE NOT FOUND".toList

/-- stage.py:2338-2348: the number the line at place `k` has in the text which is compiled. -/
def compiled (custom : Bool) (k : Nat) : Nat := if custom then k + 1 else k + 2

/-- runtime.py:62-76 `runcode`, once the code has ended: `k` is the line which raised.  Line number and text are
those of the console then. -/
def wrap (custom : Bool) (k : Nat) (s : St W F V) : Res → Res
  | .error rs =>
    let lineno := compiled custom k - 1
    .error (⟨s.path, lineno, locate s.lines lineno⟩ :: rs)
  | r => r

/-! ### Running code -/

/-- Changes the frame at place `i`. -/
def putFrame (i : Nat) (f : F) (fs : List (Str × F)) : List (Str × F) := fs.modify i (fun e => (e.1, f))

/-- stage.py:3986-3995 `execute` of the globals, with stage.py:3780-3791: what goes to `execute_nodes`.  `none` is a
`ValueError`, or an exception of the execution order. -/
def request (e : Env W F V) (w : W) (paths : List Str) (start : Str) : Option (List Str) :=
  if (paths ≠ [] ∧ start ≠ []) ∨ (paths = [] ∧ start = []) then none
  else if start ≠ [] then (if (e.look w start).isSome then e.order w start else none)
  else some paths

/-- A statement.  `call` runs `execute_nodes` on a list of paths. -/
def runStmt (e : Env W F V) (call : List Str → St W F V → Res × St W F V) (s : St W F V) : Stmt W F V → Res × St W F V
  | .work f =>
    match s.frames[s.self]? with
    | none => (.error [], s)
    | some fr =>
      let r := f fr.2 s.globals
      (r.2.2.res, { s with frames := putFrame s.self r.1 s.frames, globals := r.2.1 })
  | .call caught params paths start =>
    let r : Res × St W F V := match request e s.world paths start with
      | none => (.error [], s)
      | some ps => call ps { s with world := params s.world }
    match caught, r.1 with
    | true, .interrupt => r
    | true, _ => (.ok, r.2)
    | false, _ => r

/-- `exec` on the lines from place `k` on: how it ends, the place of the line it ended at. -/
def runLines (e : Env W F V) (call : List Str → St W F V → Res × St W F V) :
    Nat → List (Line W F V) → St W F V → Res × Nat × St W F V
  | k, [], s => (.ok, k, s)
  | k, l :: ls, s =>
    match runStmt e call s l.does with
    | (.ok, s') => runLines e call (k + 1) ls s'
    | (r, s') => (r, k, s')

/-- stage.py:4087-4125, `run` from the making of the frame on, for code which compiles.  `run_as_global` is always
false. -/
def runBody (e : Env W F V) (call : List Str → St W F V → Res × St W F V) (custom : Bool) (p : Str)
    (code : List (Line W F V)) (s : St W F V) : Res × St W F V :=
  let pre := e.load s.world p
  let i := s.frames.length
  let lines := code.map Line.text
  let good := keys s.globals
  let r := runLines e call 0 code
    { s with frames := s.frames ++ [(p, pre)], path := p, lines := lines, self := i, running := true }
  let s' := r.2.2
  let out := wrap custom r.2.1 s' r.1
  let done := { s' with running := false, globals := Rt.cleanGlobals lines good s'.globals }
  match out with
  | .error _ => (out, done)
  | .interrupt => (out, s')
  | _ => (out, { done with world := e.store p pre (((s'.frames[i]?).map Prod.snd).getD pre) done.world })

/-- stage.py:4058-4125 `run` without custom code.  Code which does not compile is reported before the console is
changed (stage.py:2350-2361); the line put before the code does not count. -/
def runNode (e : Env W F V) (call : List Str → St W F V → Res × St W F V) (p : Str) (s : St W F V) : Res × St W F V :=
  match e.code s.world p with
  | .error n => (.error [⟨p, n - 1, []⟩], { s with frames := s.frames ++ [(p, e.load s.world p)] })
  | .ok code => runBody e call false p code s

/-- stage.py:3831-3847, one node of the loop of `execute_nodes`; `ok` means that the loop goes on. -/
def visit (e : Env W F V) (call : List Str → St W F V → Res × St W F V) (p : Str) (s : St W F V) : Res × St W F V :=
  let r := runNode e call p
    { s with times := Exec.enter s.times p (e.clock s.world), trace := s.trace ++ [.begun p] }
  let s' := { r.2 with trace := r.2.trace ++ [.ended p r.1] }
  match Exec.exit s'.times p (e.clock s'.world) with
  | .error _ => (.error [], s')
  | .ok ts =>
    let s'' := { s' with times := ts }
    match Exec.runTime ts p with
    | .error _ => (.error [], s'')
    | .ok _ =>
      match r.1 with
      | .exitNode => (.ok, s'')
      | o => (o, s'')

/-- stage.py:3824-3847, the loop of `execute_nodes`. -/
def loop (e : Env W F V) (call : List Str → St W F V → Res × St W F V) : List Str → St W F V → Res × St W F V
  | [], s => (.ok, s)
  | p :: ps, s =>
    match e.look s.world p with
    | some (.bool false) => loop e call ps s
    | none => (.error [], s)
    | some _ =>
      match visit e call p s with
      | (.ok, s') => loop e call ps s'
      | r => r

/-- stage.py:3793-3847 `execute_nodes` on a runtime layer; at most `depth` calls inside each other, one more raises
`RecursionError`. -/
def execNodes (e : Env W F V) : Nat → List Str → St W F V → Res × St W F V
  | 0, _, s => (.error [], s)
  | depth + 1, ps, s => loop e (execNodes e depth) ps s

/-- stage.py:3858-3867, the part of `execute_custom_code` with `run`; `code` is the resolved code. -/
def runCustom (e : Env W F V) (depth : Nat) (p : Str) (code : List (Line W F V)) (s : St W F V) : Res × St W F V :=
  runBody e (execNodes e depth) true p code s

end Nxt.Nested
