import Verif.Model.Contexts
/-!
# Model of running a graph without a session (nxt/__init__.py:36-60)

The server is another process with a list of contexts of its own (server.py:83): those its plugins register.
-/
namespace Nxt.OneShot
open Contexts

/-- What becomes of a call. -/
inductive Ended where
  /-- nxt/__init__.py:53-56: `NameError`, before a session is made. -/
  | refused
  /-- session.py:174-179: run in this interpreter. -/
  | here
  /-- session.py:180-187: a server was started and gave this answer. -/
  | served (answer : Except Err (Call × Str))

/-- session.py:174-187 `Session.execute_graph`, where the graph is run. -/
def session (answer : Str → Except Err (Call × Str)) : Option Str → Ended
  | none => .here
  | some c => .served (answer c)

/-- nxt/__init__.py:36-60 `execute_graph`; `mine` are the contexts of this process. -/
def executeGraph (mine : List Context) (answer : Str → Except Err (Call × Str)) (context : Option Str) : Ended :=
  match truthy context with
  | some c => if c ∉ names mine then .refused else session answer context
  | none => session answer context

end Nxt.OneShot
