import Verif.Model.Disk
import Verif.Model.Names
/-!
# Model of the graphs loaded in a session (`Session`, nxt/session.py; `Stage.__init__`, nxt/stage.py)

Simplifications: of a stage only its top layer is seen; POSIX, so `os.path.normcase` is the identity.
The clock readings which become uids are natural numbers handed in.
-/
namespace Nxt.Session
open Dict LayerData Disk

/-- What a session sees of a stage: `uid`, `filepath` and `_name` (the alias of the top layer,
stage.py:180-183).  `file` is the real path of the top layer. -/
structure Graph where
  uid : Nat
  filepath : Str
  name : Str
  file : Option Str
  deriving DecidableEq

/-- `_loaded_files`. -/
abbrev Loaded := Dict Nat Graph

/-- What loading a file depends on. -/
structure Env where
  expand : Str → Str
  expanders : List (Str → Str)
  convert : Dict Str Val → Option (Dict Str Val)
  files : Files

/-- stage.py:144: `_filepath` is the name of the entry looked for. -/
def stagePath (d : Dict Str Val) : Str := (textEntry "_filepath".toList d).getD "untitled.nxt".toList

/-- stage.py:132-151 `Stage(name=…)`: the layer is made from `{'name': name}` (line 151). -/
def newGraph (t : Nat) (name : Str) : Graph :=
  { uid := t, filepath := stagePath [],
    name := (aliasEntry UNTITLED [("name".toList, .str name)]).getD [], file := none }

/-- stage.py:132-151 `Stage(layer_data=load_file_data(path))`.  Simplification: the entry `_filepath`,
if there is one, is a text; references are not loaded. -/
def openGraph (env : Env) (t : Nat) (path : Str) : Except Err Graph :=
  match loadFileData env.expand env.expanders env.convert env.files path with
  | .error e => .error e
  | .ok d =>
    match loadLayer (textEntry "real_path".toList d) (FilePaths.basename path) d with
    | none => .error .attr
    | some st => .ok { uid := t, filepath := stagePath d, name := st.alias,
                       file := textEntry "real_path".toList d }

/-- What can be asked of a session. -/
inductive Request where
  | new
  | load (path : Str)
  | unload (uid : Nat)
  | save (path : Str) (newPath : Option Str)
  | stage (path : Str)

/-- The exceptions told apart. -/
inductive Raised where
  | file (e : Err)
  | lookup
  | type
  deriving DecidableEq

/-- What a session answers: a new stage, one found, a stage dropped, `False`, or an exception. -/
inductive Answer where
  | made (g : Graph)
  | found (g : Graph)
  | dropped (uid : Nat)
  | no
  | raised (e : Raised)
  deriving DecidableEq

/-- session.py:34-41 `new_file`; enough fuel for the search (`C21_unused_graph_name_partial`). -/
def newFile (t : Nat) (s : Loaded) : Answer × Loaded :=
  let names := s.map (fun ug => ug.2.name)
  let g := newGraph t ((Names.getUnusedGraphName names UNTITLED (names.length + 3)).getD [])
  (.made g, set g.uid g s)

/-- session.py:70-86 `load_file`. -/
def loadFile (env : Env) (t : Nat) (s : Loaded) (path : Str) : Answer × Loaded :=
  match openGraph env t path with
  | .error e => (.raised (.file e), s)
  | .ok g => (.made g, set g.uid g s)

/-- session.py:88-96 `unload_file`. -/
def unloadFile (s : Loaded) (uid : Nat) : Answer × Loaded :=
  match (keys s).filter (fun k => k = uid) with
  | [] => (.raised .lookup, s)
  | k :: _ => (.dropped k, erase k s)

/-- session.py:98-125 `save_file`.  The keys are numbers, so `k[0]` raises at the first one; the graph
is never saved. -/
def saveFile (s : Loaded) (_path : Str) (_newPath : Option Str) : Answer × Loaded :=
  match keys s with
  | [] => (.no, s)
  | _ :: _ => (.raised .type, s)

/-- session.py:130-144 `get_stage`. -/
def getStage (env : Env) (t : Nat) (s : Loaded) (path : Str) : Answer × Loaded :=
  match s.find? (fun ug => ug.2.filepath = path) with
  | some ug => (.found ug.2, s)
  | none => loadFile env t s path

/-- One request at clock reading `t`. -/
def step (env : Env) (t : Nat) (s : Loaded) : Request → Answer × Loaded
  | .new => newFile t s
  | .load p => loadFile env t s p
  | .unload u => unloadFile s u
  | .save p q => saveFile s p q
  | .stage p => getStage env t s p

/-- Requests one after the other, each with its clock reading. -/
def run (env : Env) : Loaded → List (Nat × Request) → List Answer × Loaded
  | s, [] => ([], s)
  | s, (t, r) :: rest =>
    let (a, s) := step env t s r
    let (as, s) := run env s rest
    (a :: as, s)

end Nxt.Session
