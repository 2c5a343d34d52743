import Verif.Model.Py
/-!
# Model of loading layers: `load_from_file`, `check_for_layer_ref_cycle`, `get_root_parent`

Layer objects are numbers: a layer is its place in the list of layers ever made.  In
`load_from_file` layers are only added at the end of `_sub_layers`, so it is also the place in that
list.
-/
namespace Nxt.Stage

/-- What is used of one layer. -/
structure LRec where
  /-- `filepath`, as written in the referring file -/
  file : Str
  /-- `real_path` -/
  real : Str
  /-- `parent_layer` -/
  parent : Option Nat
  /-- `sub_layer_paths` -/
  subPaths : List Str
  /-- `sub_layers`: file path and the object under the key `'layer'`, if set -/
  subs : List (Str × Option Nat)
  deriving DecidableEq, Repr

/-- What is used of the data of a file. -/
structure FileData where
  file : Str
  real : Str
  refs : List Str
  deriving DecidableEq, Repr

/-- Outcome of `nxt_io.load_file_data` in a working directory. -/
inductive Loaded where
  /-- `IOError` -/
  | ioError
  /-- any other exception, e.g. a file which is no JSON -/
  | raises
  /-- data which is false -/
  | empty
  | data (d : FileData)
  deriving DecidableEq, Repr

structure State where
  /-- `_sub_layers` -/
  layers : List LRec
  /-- `os.getcwd()` -/
  cwd : Str
  deriving DecidableEq, Repr

inductive Res (α : Type) where
  /-- still running when the fuel is used up -/
  | running
  /-- an exception, with the state left behind -/
  | raised (st : α)
  | ok (st : α)
  deriving DecidableEq, Repr

/-- nxt_layer.py:114-131, `SpecLayer.__init__` for the parts used here: empty references are left
out. -/
def newLayer (parent : Option Nat) (d : FileData) : LRec :=
  let refs := d.refs.filter (· ≠ [])
  { file := d.file, real := d.real, parent := parent, subPaths := refs,
    subs := refs.map (fun r => (r, none)) }

/-- stage.py:360-373: forget an unreadable reference: the first equal path, all equal entries. -/
def dropRef (ref : Str) (l : LRec) : LRec :=
  { l with subPaths := l.subPaths.erase ref, subs := l.subs.filter (fun s => s.1 ≠ ref) }

/-- stage.py:355-374, one reference of the layer `me`; `rec` is the recursive call. -/
def refStep (read : Str → Str → Loaded) (rec : FileData → Option Nat → State → Res State) (me : Nat)
    (acc : Res State) (ref : Str) : Res State :=
  match acc with
  | .ok st =>
    match read st.cwd ref with
    | .ioError => .ok { st with layers := st.layers.modify me (dropRef ref) }
    | .raises => .raised st
    | .empty => .ok st
    | .data d => rec d (some me) st
  | r => r

/-- stage.py:335-375 `load_from_file` with `new_layer` (2589-2605).  `read cwd path` is
`nxt_io.load_file_data`, `dirname` is `os.path.dirname`; `fuel` bounds the depth of recursion.  The
files do not change during loading.  `os.chdir` is assumed to succeed. -/
def load (read : Str → Str → Loaded) (dirname : Str → Str) :
    Nat → FileData → Option Nat → State → Res State
  | 0, _, _, _ => .running
  | fuel + 1, d, parent, st =>
    let me := st.layers.length
    let oldCwd := st.cwd
    let st := { layers := st.layers ++ [newLayer parent d], cwd := dirname d.real }
    let res := d.refs.foldl (refStep read (load read dirname fuel) me) (Res.ok st)
    match res with
    | .ok st => .ok { st with cwd := oldCwd }
    | r => r

/-- stage.py:316-328 `check_for_layer_ref_cycle`: walk up from the layer `at?`; `none` when still
running. -/
def checkCycle (layers : List LRec) (path : Str) : Nat → Option Nat → Option Bool
  | 0, _ => none
  | _ + 1, none => some false
  | fuel + 1, some i =>
    match layers[i]? with
    | none => some false
    | some l => if l.real = path then some true else checkCycle layers path fuel l.parent

/-- nxt_layer.py:1156-1162 `get_root_parent`: the loop with the values of `parent` and `root`.
Layer objects are always true. -/
def rootLoop (layers : List LRec) : Nat → Option Nat → Option Nat → Option (Option Nat)
  | 0, _, _ => none
  | _ + 1, none, root => some root
  | fuel + 1, some i, _ =>
    match layers[i]? with
    | none => some (some i)
    | some l => rootLoop layers fuel l.parent (some i)

/-- nxt_layer.py:1156-1162 `get_root_parent`. -/
def rootParent (layers : List LRec) (fuel : Nat) (i : Nat) : Option (Option Nat) :=
  match layers[i]? with
  | none => none
  | some l => rootLoop layers fuel l.parent none

end Nxt.Stage
