import Verif.Model.Names
import Verif.Model.Version
import Verif.Model.Runtime
/-!
# Model of remote contexts (nxt/remote/contexts.py, server.py, remote/__init__.py, nxt/__init__.py, nxt/cli.py)

Simplification: POSIX.
-/
namespace Nxt.Contexts
open Py

/-- contexts.py:16-32 `RemoteContext`. -/
structure Context where
  name : Str
  exe : Str
  graph : Str
  args : List Str
  deriving DecidableEq

/-- contexts.py:44-57 `register_context`. -/
def register (c : Context) (cs : List Context) : List Context := cs ++ [c]

/-- contexts.py:60-64 `find_context_by_name`. -/
def find (name : Str) : List Context → Option Context
  | [] => none
  | c :: cs => if c.name = name then some c else find name cs

/-- contexts.py:67-69 `iter_context_names`. -/
def names (cs : List Context) : List Str := cs.map (·.name)

/-- contexts.py:72-74: the contexts there are at first. -/
def builtin (exe : Str) : List Context :=
  register { name := "python".toList, exe := exe, graph := "$NXT_BUILTINS/_context.nxt".toList, args := [] } []

/-- nxt_path.py:12-36 `full_file_expand` in the working directory `cwd`; `vars` expands variables and the
home directory (lines 30-32).  Simplification: no links or dots. -/
def expand (vars : Str → Str) (cwd path : Str) : Str :=
  if startsWith (vars path) ['/'] then vars path else cwd ++ '/' :: vars path

/-! ### Calling a context -/

/-- What is handed to `subprocess.call`: a list of arguments; or a text, the exe formatted with the
script and the cli arguments. -/
inductive Call where
  | list (args : List Str)
  | text (exe script cliArgs : Str)
  deriving DecidableEq

inductive Err where
  | name
  | type
  | io
  deriving DecidableEq

/-- An argument which is neither `None` nor empty. -/
def truthy (o : Option Str) : Option Str := o.filter (fun s => s ≠ [])

/-- server.py:119-123: the cli arguments. -/
def cliArgs (graph file cache : Str) (paramFile : Option Str) : List Str :=
  ["exec".toList, graph, "-p".toList, "/.graph_file".toList, file, "/.cache_file".toList, cache] ++
    (match paramFile with
     | none => []
     | some p => ["/.parameters_file".toList, p])

/-- server.py:66-152 `exec_in_headless`: the call made and the cache path returned.  `root` is the working
directory of the server (server.py:188-190), `tempCache` and `tempParams` the temporary files made. -/
def execInHeadless (vars : Str → Str) (cs : List Context) (root script tempCache tempParams filepath : Str) (start : Option Str)
    (cache : Option Str) (hasParams : Bool) (name : Str) : Except Err (Call × Str) :=
  match find name cs with
  | none => .error .name
  | some c =>
    if c.exe = [] then .error .type
    else
      let graph := expand vars root c.graph
      if graph = [] then .error .type
      else
        let cachePath := (truthy cache).getD tempCache
        let paramFile := if hasParams then some tempParams else none
        let cli := cliArgs graph (expand vars root filepath) cachePath paramFile
        let args :=
          if c.args ≠ [] then [c.exe] ++ c.args ++ [script, "--".toList] ++ cli
          else [c.exe, script] ++ cli ++
            (match truthy start with
             | some s => ["/enter/call_graph._start".toList, s]
             | none => [])
        if contains c.exe "UE4Editor".toList then .ok (.text c.exe script (join [' '] cli), cachePath)
        else .ok (.list args, cachePath)

/-- cli.py:222-226: what is left of `sys.argv` for `parse_args`. -/
def mainArgs (argv : List Str) : List Str :=
  if "--".toList ∈ argv then (argv.drop (argv.idxOf "--".toList)).drop 1 else argv.drop 1

/-- argparse on `exec path -p …` (cli.py:172-209): the path and the parameters.  Simplification: only this
form; an argument starting with a dash is taken for an option, which is `none`. -/
def parseExec : List Str → Option (Str × List Str)
  | a :: path :: o :: rest =>
    if a = "exec".toList ∧ o = "-p".toList ∧ !startsWith path ['-'] ∧ rest.all (fun r => !startsWith r ['-']) then
      some (path, rest)
    else none
  | _ => none

/-! ### Making a context -/

/-- The components of an absolute path.  Simplification: no dots. -/
def comps (p : Str) : List Str := (split '/' p).filter (fun c => c ≠ [])

/-- `os.path.commonprefix` of two: by elements of the list. -/
def commonPrefix {α : Type} [DecidableEq α] : List α → List α → List α
  | a :: as, b :: bs => if a = b then a :: commonPrefix as bs else []
  | _, _ => []

/-- `os.path.relpath` of absolute paths. -/
def relpath (path start : Str) : Str :=
  let i := (commonPrefix (comps path) (comps start)).length
  let l := List.replicate ((comps start).length - i) "..".toList ++ (comps path).drop i
  if l = [] then ['.'] else join ['/'] l

/-- `custom_{name}_context` and an ending. -/
def custom (dir name ext : Str) : Str := dir ++ '/' :: ("custom_".toList ++ name ++ "_context".toList ++ ext)

/-- nxt/__init__.py:63-138 `create_context`: the contexts and the files afterwards; `files` are the files
there are, `dir` is the plugin directory, an absolute path, `cwd` the working directory.
Simplifications: the contents of the files are left out; name, exe and graph are without quotes, backslashes
and braces, so that the text run at the end registers them as they are. -/
def createContext (vars : Str → Str) (dir cwd : Str) (files : List Str) (cs : List Context) (name exe : Str)
    (graph : Option Str) (args : List Str) : Except Err (List Context × List Str) :=
  if name = [] then .error .name
  else
    let py := custom dir name ".py".toList
    if py ∈ files then .error .io
    else
      match graph with
      | none =>
        let g := custom dir name ".nxt".toList
        .ok (register ⟨name, exe, g, args⟩ cs, files ++ [g, py])
      | some g =>
        if expand vars cwd g ∉ files then .error .io
        else
          let root := commonPrefix g py
          let g := if root ≠ [] then relpath g root else g
          .ok (register ⟨name, exe, g, args⟩ cs, files ++ [py])

/-! ### The address of the server -/

/-- `readlines`: the lines with their line ends. -/
def readlines : Str → List Str
  | [] => []
  | c :: s =>
    if c = '\n' then [c] :: readlines s
    else
      match readlines s with
      | [] => [[c]]
      | l :: ls => (c :: l) :: ls

/-- server.py:181-183: what `secure_address` writes. -/
def addressFile (port : Nat) : Str := "localhost".toList ++ ['\n'] ++ Names.dec port

/-- remote/__init__.py:9-26 `get_running_server_address`: host and port, given the contents of the file if
there is one; `none` is `ValueError`. -/
def serverAddress (file : Option Str) : Option (Str × Int) :=
  match file with
  | none => some ("localhost".toList, 8001)
  | some s =>
    match readlines s with
    | [_, port] => (Version.parseInt port).map (fun p => ("localhost".toList, p))
    | _ => some ("localhost".toList, 8001)

end Nxt.Contexts
