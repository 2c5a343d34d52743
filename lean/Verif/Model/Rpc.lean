import Verif.Model.Py
/-!
# Model of the rpc server a session starts and stops (nxt/session.py)

Simplifications: POSIX, so the branches for error number 10061 (lines 364 and 381), which only Windows
gives, are left out; the log file and the log socket are left out.
-/
namespace Nxt.Rpc

/-- What the code depends on outside a session: the process whose server answers at the recorded
address, whether something else listens there, the server processes there are, the next process number,
`is_standalone()`, and the environment variable `NXT_VERBOSE`. -/
structure World where
  server : Option Nat
  foreign : Bool
  procs : List Nat
  nextPid : Nat
  standalone : Bool
  verbose : Option Str
  deriving DecidableEq

/-- A session in its world: `rpc_server`, by the number of the process it started (session.py:25-28). -/
structure St where
  world : World
  handle : Option Nat
  deriving DecidableEq

/-- session.py:262. -/
def STARTUP_TIMEOUT : Nat := 5

/-- session.py:350-368 `is_running`. -/
def isRunning (w : World) : Bool := w.server.isSome

/-- session.py:397-408 `is_port_available`. -/
def isPortAvailable (w : World) : Bool := !(w.server.isSome || w.foreign)

/-- Whether a process answers at the given check, if it does so from check `delay` on. -/
def answers (delay : Option Nat) (check : Nat) : Bool :=
  match delay with
  | none => false
  | some d => d ≤ check

/-- session.py:337-343: the value of `count` at the end of the loop, with `left` checks to go. -/
def waiting (delay : Option Nat) : Nat → Nat → Nat
  | 0, count => count
  | left + 1, count => if answers delay (count + 1) then count + 1 else waiting delay left (count + 1)

/-- session.py:307-348 `run`; `none` is `OSError`. -/
def run (socketLog : Bool) (delay : Option Nat) (w : World) : Option Bool × World :=
  if isRunning w then (some false, w)
  else if !isPortAvailable w then (none, w)
  else
    let old := w.verbose
    let w := if socketLog then { w with verbose := some "socket".toList } else w
    let pid := w.nextPid
    let w := { w with procs := w.procs ++ [pid], nextPid := pid + 1 }
    let count := waiting delay STARTUP_TIMEOUT 0
    let w := if answers delay count then { w with server := some pid } else w
    if count = STARTUP_TIMEOUT then (none, w)
    else
      let w := match old with
        | none => w
        | some v => { w with verbose := some v }
      (some true, w)

/-- session.py:287-305 `start`: the process of the server started, if there is one. -/
def start (socketLog : Bool) (delay : Option Nat) (w : World) : Option (Option Nat) × World :=
  if !w.standalone then (some none, w)
  else
    match run socketLog delay w with
    | (none, w') => (none, w')
    | (some true, w') => (some (some w.nextPid), w')
    | (some false, w') => (some none, w')

/-- session.py:225-242 `_start_rpc_server`; the flag is false for `OSError`. -/
def startServer (socketLog : Bool) (delay : Option Nat) (s : St) : Bool × St :=
  match start socketLog delay s.world with
  | (none, w) => (false, { s with world := w })
  | (some h, w) => (true, { world := w, handle := h })

/-- session.py:370-395 `terminate`: the server which answers is killed (server.py:154-172). -/
def terminate (w : World) : World :=
  match w.server with
  | none => w
  | some p => { w with server := none, procs := w.procs.erase p }

/-- session.py:244-258 `shutdown_rpc_server`. -/
def shutdown (s : St) : St :=
  match s.handle with
  | none => s
  | some _ => { world := terminate s.world, handle := none }

/-- session.py:207-220: the layers are given by the paths of their nodes. -/
def needed (layers : List (List Str)) : Bool :=
  layers.any (fun l => decide ("/_remote_sub_graph".toList ∈ l) || decide ("/_sub_graph".toList ∈ l))

/-- session.py:199-223 `start_rpc_if_needed`. -/
def startIfNeeded (layers : List (List Str)) (delay : Option Nat) (s : St) : Bool × St :=
  if needed layers then startServer false delay s else (true, s)

/-- How an execution ended: whether it raised, and, if the graph was run, the server there was
meanwhile. -/
structure Outcome where
  raised : Bool
  ran : Option (Option Nat)
  deriving DecidableEq

/-- Executions asked of a session: a graph, a graph in a context, some nodes.  `fails`: running the
graph raises; `buildFails`: `build_stage` does. -/
inductive Job where
  | graph (layers : List (List Str)) (fails : Bool)
  | remote (fails : Bool)
  | nodes (layers : List (List Str)) (buildFails fails : Bool)

/-- session.py:175-179 and 181-187: the `try … finally`.  Simplification: the graph run does not itself
start or stop the server. -/
def attempt (fails : Bool) (s : St) : Outcome × St := (⟨fails, some s.world.server⟩, shutdown s)

/-- session.py:146-197 `execute_graph`, `execute_nodes`. -/
def execute (delay : Option Nat) (s : St) : Job → Outcome × St
  | .graph layers fails =>
    match startIfNeeded layers delay s with
    | (false, s) => (⟨true, none⟩, s)
    | (true, s) => attempt fails s
  | .remote fails =>
    match startServer false delay s with
    | (false, s) => (⟨true, none⟩, s)
    | (true, s) => attempt fails s
  | .nodes layers buildFails fails =>
    match startIfNeeded layers delay s with
    | (false, s) => (⟨true, none⟩, s)
    | (true, s) => if buildFails then (⟨true, none⟩, s) else attempt fails s

/-- Executions one after the other, with how long a server takes to come up each time. -/
def executeAll : St → List (Option Nat × Job) → List Outcome × St
  | s, [] => ([], s)
  | s, (delay, j) :: rest =>
    let (o, s) := execute delay s j
    let (os, s) := executeAll s rest
    (o :: os, s)

end Nxt.Rpc
