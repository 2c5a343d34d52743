import Verif.Model.Mro
import Verif.Model.Runtime
/-!
# Model of values flowing from node to node during an execution (nxt/stage.py)

A runtime layer is a composed layer; its nodes are classes (see `Verif.Model.Mro`), and what a node sees is what
Python finds in its resolution order.  Running a node pushes changed values back to its class, where the nodes
below it in the order find them.

Simplifications: the code of a node works on its frame and on the globals only (it could reach other nodes
through `__stage__` or `STAGE`); code resolves without an exception.
-/
namespace Nxt.Flow
open Dict NodeData Mro Rt

/-- What stage.py:4145-4150 `determine_nxt_type` and `eval` make of a text: `raw` when it is no literal, `str` for
the literal of a text, the value of any other literal, or an exception which is not caught (`literal_eval`
raises `TypeError` for `{[]: 1}`). -/
inductive Lit where
  | raw
  | str
  | val (v : Val)
  | raises

/-- stage.py:2212-2260 `get_attr_as_real_data_type`, given the value found; `none` is an exception.  `eval` of a
literal gives the value of the literal. -/
def realOf (resolve : Str → Option Str) (lit : Str → Lit) : Val → Option Val
  | .str s =>
    match resolve s with
    | none => none
    | some t =>
      match lit t with
      | .raw => some (.str t)
      | .str => some (.str t)
      | .val v => some v
      | .raises => none
  | v => some v

/-- What does not change during an execution: names of Python, the comparison of values, the layer, resolving
(`none` is an exception), literals, the code of a node and its lines, what the code does. -/
structure Env where
  builtins : List Str
  eq : Val → Val → Bool
  layer : Option Str
  resolve : Classes → Nat → Str → Option Str
  lit : Str → Lit
  code : Classes → Nat → Str
  lines : Str → List Str
  asGlobal : Bool
  selfObj : Val
  exec : Str → Frame → Frame × Exec.Outcome

/-- The runtime layer: classes and the globals of the console. -/
structure State where
  classes : Classes
  globals : Dict Str Val

/-- The class `c` with what it finds above it; the tables of the classes above follow each other, the first
entry counts. -/
def rtNode (g : Classes) (c : Nat) : RtNode := ⟨g.own c, ((g.mro c).getD []).tail.flatMap g.own⟩

/-- `own` of class `c` replaced. -/
def setOwn (g : Classes) (c : Nat) (own : Dict Str Val) : Classes :=
  { g with own := fun d => if d = c then own else g.own d }

/-- stage.py:4064-4072: the code is kept on the node before its attributes are read. -/
def cached (e : Env) (g : Classes) (c : Nat) : Classes := setOwn g c (set A_CACHED (.str (e.code g c)) (g.own c))

/-- stage.py:4082-4083: the value of an attribute of the node as its code will see it.  The sources set by the loop
meanwhile (line 4081) are not seen by the resolving here. -/
def real (e : Env) (g : Classes) (c : Nat) (a : Str) : Option Val :=
  realOf (e.resolve (cached e g c) c) e.lit (g.attr c a)

/-- stage.py:4076-4080: the attributes the loop goes over. -/
def attrs (e : Env) (g : Classes) (c : Nat) : List Str :=
  (rtNode (cached e g c) c).dir.filter (fun a => !skipped e.builtins a)

/-- stage.py:4081 for the attributes up to the first which can not be read. -/
def sourcesTo (e : Env) (g : Classes) (c : Nat) (path : Str) : List Str → Dict Str Val → Dict Str Val
  | [], own => own
  | a :: rest, own =>
    let own := set (a ++ M_SOURCE) (.src e.layer path) own
    if (real e g c a).isSome then sourcesTo e g c path rest own else own

/-- stage.py:4058-4125 `run` on the class `c` at `path`. -/
def runNode (e : Env) (path : Str) (c : Nat) (s : State) : RunEnd × State :=
  let g := s.classes
  if (attrs e g c).all (fun a => (real e g c a).isSome) then
    let code := e.code g c
    let r := Rt.run e.builtins (fun a => (real e g c a).getD .none) e.eq e.layer path code (e.lines code) e.asGlobal
      e.selfObj (e.exec code) (rtNode g c) s.globals
    (r.1, ⟨setOwn g c r.2.1.own, r.2.2⟩)
  else (.graphError, ⟨setOwn g c (sourcesTo e g c path (attrs e g c) ((cached e g c).own c)), s.globals⟩)

/-- How the loop of `execute_nodes` takes the end of `run`: an attribute error passes through like an error of
the code. -/
def outcome : RunEnd → Exec.Outcome
  | .returned => .ok
  | .exitNode => .exitNode
  | .exitGraph => .exitGraph
  | .graphError => .error
  | .attrError => .error

/-- stage.py:3821-3822: the node and its enabled state, which nxt_node.py:199-205 `get_node_enabled` reads. -/
def enabledAt (nodes : Dict Str Nat) (s : State) (p : Str) : Option Val :=
  (get? p nodes).map (fun c => s.classes.attr c A_ENABLED)

/-- stage.py:3830 of the loop; a path without node does not come here. -/
def runAt (e : Env) (nodes : Dict Str Nat) (p : Str) (s : State) (ts : Exec.Times) : Exec.Outcome × State × Exec.Times :=
  match get? p nodes with
  | none => (.error, s, ts)
  | some c =>
    let r := runNode e p c s
    (outcome r.1, r.2, ts)

/-- stage.py:3820-3847, the loop of `execute_nodes` over `ps`; the first table has the classes by path. -/
def execute (e : Env) (nodes : Dict Str Nat) (clock : State → Int) (ps : List Str) (s : State) (ts : Exec.Times) :
    Exec.End × State × Exec.Times × List (Str × Exec.Outcome) :=
  Exec.execLoop (enabledAt nodes) (runAt e nodes) clock ps s ts

end Nxt.Flow
