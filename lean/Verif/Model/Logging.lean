import Verif.Model.Dict
/-!
# Model of the log handlers (nxt/nxt_log.py)

The root logger `nxt` takes records of level DEBUG and above (line 163) and hands them to its handlers in
turn; a handler writes those of its level and above.  Left out: formats, the colours, and the file system
(making the directory, the permissions, the file of tracked logs, for which see Model/Remote.lean).  A
verbosity that is no number raises ValueError in the code and is left out.
-/
namespace Nxt.Logging
open Dict

/-- Where a handler writes. -/
inductive Sink where
  | null
  | stderr
  | file (name : Str)
  | socket
  deriving DecidableEq

/-- A handler object: its identity, where it writes. -/
structure Handler where
  id : Nat
  sink : Sink
  deriving DecidableEq

/-- The handlers of the root logger, the level of each handler object (0 if never set), the global
`verbose_handler`, `SESSION_LOG_HANDLERS`, and the next identity. -/
structure St where
  handlers : List Handler
  level : Handler → Nat
  verbose : Option Handler
  sessions : Dict Str Handler
  next : Nat

/-- nxt_log.py:41. -/
def EXECINFO : Nat := 18

/-- `logging.DEBUG`, nxt_log.py:163. -/
def DEBUG : Nat := 10

/-- `addHandler` with a new object. -/
def addHandler (sink : Sink) (s : St) : Handler × St :=
  let h : Handler := ⟨s.next, sink⟩
  (h, { s with handlers := s.handlers ++ [h], next := s.next + 1 })

/-- `removeHandler`. -/
def removeHandler (h : Handler) (s : St) : St := { s with handlers := s.handlers.erase h }

/-- `setLevel`. -/
def setLevel (h : Handler) (l : Nat) (s : St) : St :=
  { s with level := fun g => if g = h then l else s.level g }

/-- The values of the argument: `'socket'` or a number. -/
inductive Verbosity where
  | socket
  | num (n : Int)

/-- nxt_log.py:176-213 `set_verbosity`: the handler returned.  The global is read but not written. -/
def setVerbosity (v : Verbosity) (s : St) : Option Handler × St :=
  match v with
  | .socket => (none, (addHandler .socket s).2)
  | .num n =>
    if n = 0 then
      match s.verbose with
      | none => (none, s)
      | some h => (none, removeHandler h s)
    else if n > 0 then
      let (h, s) := match s.verbose with
        | some h => (h, s)
        | none => addHandler .stderr s
      let s := if n = 1 then setLevel h EXECINFO s else s
      (some h, s)
    else (none, s)

/-- nxt_log.py:152-173 `initial_setup`, the first time; `env` is the value of `NXT_VERBOSE`. -/
def initialSetup (env : Option Verbosity) : St :=
  let s := (addHandler .null { handlers := [], level := fun _ => 0, verbose := none, sessions := [], next := 0 }).2
  match env with
  | none => s
  | some v =>
    let (h, s) := setVerbosity v s
    { s with verbose := h }

/-- nxt_log.py:220-240 `make_session_log`; the file name is given or made of the clock, in seconds. -/
def makeLog (name : Str) (s : St) : St :=
  let (h, s) := addHandler (.file name) s
  { s with sessions := set name h s.sessions }

/-- nxt_log.py:265-275 `stop_session_log`. -/
def stopLog (name : Str) (s : St) : St :=
  match get? name s.sessions with
  | none => s
  | some h => removeHandler h s

/-- nxt_log.py:163, `Logger.callHandlers`: how often a record of level `l` is written to a sink. -/
def written (sink : Sink) (l : Nat) (s : St) : Nat :=
  if l < DEBUG then 0 else s.handlers.countP (fun h => h.sink = sink ∧ s.level h ≤ l)

/-- nxt_log.py:176-275: what can be asked. -/
inductive Req where
  | verbosity (v : Verbosity)
  | make (name : Str)
  | stop (name : Str)

/-- nxt_log.py:176-275. -/
def step (s : St) : Req → St
  | .verbosity v => (setVerbosity v s).2
  | .make n => makeLog n s
  | .stop n => stopLog n s

end Nxt.Logging
