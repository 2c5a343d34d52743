import Verif.Model.Py
/-!
# Model of the socket client (nxt/remote/nxt_socket.py)

What a command does is recorded as the messages it sends and the work it carries out.  Which work raises is given by
`fails`.  Messages reach the server (for failing sends see `stale`); whether the server answers a wait message is given by
`answers`.  Logging is left out here but for `logError`.  `bytes` of text (nxt_socket.py:255) is taken as Python 2 has it; on
Python 3 it raises `TypeError`, so nothing is ever sent.
-/
namespace Nxt.Socket

/-- The messages, nxt_socket.py:30-38, without their content but for the state of a wait. -/
inductive Msg where
  | wait (b : Bool) | ping | cache | err | shutdown
  deriving DecidableEq

/-- The work of the commands: reading the file, making the stage, the composite layer, the runtime layer, executing nodes,
saving the cache. -/
inductive Work where
  | read | stage | comp | runtime | execute | save
  deriving DecidableEq

inductive Event where
  | sent (m : Msg) | did (w : Work)
  deriving DecidableEq

/-- `SocketClientModel`, nxt_socket.py:83-94, as far as the commands look at it, with the global `__nxt_server__` and the
number of `NXTSocketLogHandler`s of the logger. -/
structure Client where
  filepath : Bool := false
  stage : Bool := false
  runtime : Bool := false
  server : Bool := false
  handlers : Nat := 0
  deriving DecidableEq

/-- A command: from a client to the client after it, what happened, and whether an exception was raised. -/
abbrev Cmd := Client → Client × List Event × Bool

/-- One command, and another unless the first raised. -/
def andThen (a b : Cmd) : Cmd := fun c =>
  match a c with
  | (c, tr, true) => (c, tr, true)
  | (c, tr, false) => ((b c).1, tr ++ (b c).2.1, (b c).2.2)

def skip : Cmd := fun c => (c, [], false)

/-- A piece of work which changes the client if it does not raise. -/
def work (fails : Work → Bool) (w : Work) (f : Client → Client) : Cmd := fun c =>
  if fails w then (c, [.did w], true) else (f c, [.did w], false)

/-- nxt_socket.py:241-264 `send_to_server`: without a server nothing is sent. -/
def send (m : Msg) : Cmd := fun c => (c, if c.server then [.sent m] else [], false)

/-- nxt_socket.py:276-294 `send_wait_msg`. -/
def sendWait (answers : Bool) (b : Bool) : Cmd := fun c =>
  if c.server then (c, .sent (.wait b) :: (if answers then [] else [.sent (.wait false)]), false) else (c, [], false)

/-- nxt_socket.py:267-300 `with IPCWait(self)`: the wait is ended also when the body raises. -/
def waiting (answers : Bool) (body : Cmd) : Cmd := fun c =>
  let (c, t1, _) := sendWait answers true c
  let (c, t2, raised) := body c
  let (c, t3, _) := sendWait answers false c
  (c, t1 ++ t2 ++ t3, raised)

variable (answers : Bool) (fails : Work → Bool)

/-- nxt_socket.py:158-171 `_rebuild_comp`. -/
def rebuild : Cmd := waiting answers fun c =>
  if c.stage then andThen (work fails .comp id) (work fails .runtime (fun c => { c with runtime := true })) c else skip c

/-- nxt_socket.py:96-108 `load`. -/
def load : Cmd := waiting answers
  (andThen (fun c => work fails .read id { c with filepath := true })
    (andThen (work fails .stage (fun c => { c with stage := true })) (rebuild answers fails)))

/-- nxt_socket.py:110-131 `_run`; the parameter file and what is executed are left out.  `execute_nodes` returns a runtime
layer. -/
def runInner : Cmd := fun c =>
  if c.stage then
    andThen (fun c => if c.runtime then skip c else rebuild answers fails c) (work fails .execute id) c
  else skip c

/-- nxt_socket.py:133-144 `run`: a `GraphError`, raised by executing, is told to the server; others go on. -/
def run : Cmd := waiting answers fun c =>
  match runInner answers fails c with
  | (c, tr, true) =>
    if tr.getLast? = some (.did .execute) then ((send .err c).1, tr ++ (send .err c).2.1, false) else (c, tr, true)
  | (c, tr, false) => (c, tr, false)

/-- nxt_socket.py:146-156 `refresh`. -/
def refresh : Cmd := waiting answers fun c =>
  if c.filepath then
    andThen (work fails .read id)
      (andThen (work fails .stage (fun c => { c with stage := true })) (rebuild answers fails)) c
  else skip c

/-- nxt_socket.py:209-217 `ping`. -/
def ping : Cmd := waiting answers (send .ping)

/-- nxt_socket.py:219-227 `get_cache`; without a runtime layer this is an `AttributeError`. -/
def getCache : Cmd := waiting answers fun c =>
  if c.runtime then andThen (work fails .save id) (send .cache) c else (c, [], true)

/-- nxt_socket.py:190-207 `open`. -/
def openServer (c : Client) : Client :=
  { c with server := true, handlers := if c.handlers = 0 then c.handlers + 1 else c.handlers }

/-- nxt_socket.py:173-188 `close`: one handler is removed. -/
def closeServer (notify : Bool) (c : Client) : Client × List Event :=
  let c := { c with handlers := c.handlers - 1 }
  ({ c with server := false }, if notify then (send .shutdown c).2.1 else [])

/-- nxt_socket.py:259-262: the socket turns out to be stale. -/
def stale (c : Client) : Client := { c with server := false }

/-- `logger.error` with the socket handlers: each sends the record (nxt_socket.py:230-238, 310-311), and without a server
that logs another error (nxt_socket.py:251-253).  The number of calls made; `none` if `fuel` of them do not suffice. -/
def logError (c : Client) : Nat → Option Nat
  | 0 => none
  | fuel + 1 =>
    if c.handlers = 0 then some 1
    else if c.server then some 1
    else (logError c fuel).map (· + 1)

end Nxt.Socket
