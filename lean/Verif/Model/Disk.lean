import Verif.Model.LayerData
import Verif.Model.Version
import Verif.Model.FilePaths
/-!
# Model of the files on disk (`load_file_data`, `save_file_data`, nxt/nxt_io.py; `SpecLayer.save`,
nxt/nxt_layer.py; nxt/clean_json.py)

Simplifications: a disk is a table from paths to contents; every folder exists and may be written to;
pickling never fails; a file holds what reading its text back as JSON gives (the text itself is in JsonText.lean).
-/
namespace Nxt.Disk
open Dict LayerData NodeData

/-! ### Contents -/

/-- What a file holds: JSON text (the values it reads back as), a pickle, or text which is cut off. -/
inductive Content where
  | json (d : Dict Str Val)
  | pickle (d : Dict Str Val)
  | cut

/-- The files on disk by path. -/
abbrev Files := Dict Str Content

/-- The exceptions told apart. -/
inductive Err where
  /-- `TypeError` -/
  | type
  /-- `IOError` -/
  | io
  /-- the text is no JSON: `JSONDecodeError` or `UnicodeDecodeError`, both `ValueError` -/
  | decode
  /-- `AttributeError` -/
  | attr
  deriving DecidableEq

mutual
/-- What `json.load` gives back for a value written by `json.dump`: a tuple is written as a list.
Simplification: every further object the writer accepts comes back as it is. -/
def written : Val → Val
  | .src none path => .list [.none, .str path]
  | .src (some layer) path => .list [.str layer, .str path]
  | .list l => .list (writtenList l)
  | .dict d => .dict (writtenDict d)
  | v => v
def writtenList : List Val → List Val
  | [] => []
  | v :: l => written v :: writtenList l
def writtenDict : List (Str × Val) → List (Str × Val)
  | [] => []
  | (k, v) :: d => (k, written v) :: writtenDict d
end

mutual
/-- clean_json.py:8-27 `_byteify(data, ignore_dicts=True)` under Python 3, for data read from JSON
(which holds no `bytes`). -/
def byteifyItem : Val → Val
  | .list l => .list (byteifyItems l)
  | v => v
def byteifyItems : List Val → List Val
  | [] => []
  | v :: l => byteifyItem v :: byteifyItems l
end

/-- clean_json.py:8-27 `_byteify(data)` for a dict: the dict comprehension of line 26. -/
def byteify (d : Dict Str Val) : Dict Str Val :=
  d.foldl (fun r kv => set kv.1 (byteifyItem kv.2) r) []

mutual
/-- nxt_io.py:77 `json.load(…, object_hook=_byteify)`: the hook is given every dict, the inner ones
first. -/
def decode : Val → Val
  | .list l => .list (decodeList l)
  | .dict d => .dict (byteify (decodeDict d))
  | v => v
def decodeList : List Val → List Val
  | [] => []
  | v :: l => decode v :: decodeList l
def decodeDict : List (Str × Val) → List (Str × Val)
  | [] => []
  | (k, v) :: d => (k, decode v) :: decodeDict d
end

/-! ### File names -/

/-- constants.py:71-74 `FILE_FORMAT._ALL`. -/
def EXTS : List Str := [".nxt".toList, ".nxtb".toList]

/-- `os.path.splitext` (POSIX): the extension begins at the last dot of the base name, unless there are
only dots before it. -/
def splitext (p : Str) : Str × Str :=
  match Py.rpartition? ['.'] (FilePaths.basename p) with
  | none => (p, [])
  | some (s, e) =>
    if s.any (fun c => c ≠ '.') then (p.take (p.length - (e.length + 1)), '.' :: e) else (p, [])

/-! ### Writing and reading -/

/-- nxt_io.py:115-149 `save_file_data`; `binary` is `file_format == FILE_FORMAT.BINARY`.  The result is
the path or the exception, with the files afterwards.  Lines 132-136 change nothing: the path is not
empty, has no other separators (POSIX) and ends in its own extension. -/
def saveFileData (files : Files) (data : Dict Str Val) (path : Option Str) (binary : Bool) :
    Except Err Str × Files :=
  match path with
  | none => (.error .type, files)
  | some p =>
    if (splitext p).2 ∉ EXTS then (.error .type, files)
    else if binary then (.ok p, set p (.pickle data) files)
    else if (Val.dict data).serialisable then (.ok p, set p (.json (writtenDict data)) files)
    else (.error .type, set p .cut files)

/-- nxt_io.py:62-68: the file to read.  An expander is taken at its word when there is such a file;
`expand` is `full_file_expand`. -/
def realPath (expand : Str → Str) (expanders : List (Str → Str)) (files : Files) (path : Str) : Str :=
  ((expanders.map (fun e => e path)).find? (fun q => (get? q files).isSome)).getD (expand path)

/-- nxt_io.py:78-103: what becomes of the data of a file; `convert` is the legacy converter, `none` when
it raises.  An entry `version` which is neither a text nor false has no `count`. -/
def upgrade (convert : Dict Str Val → Option (Dict Str Val)) (d : Dict Str Val) :
    Except Err (Dict Str Val) :=
  let decide (v : Option Str) : Except Err (Dict Str Val) :=
    match Version.gate v with
    | .invalid => .error .io
    | .unparsable => .error .decode
    | .tooNew => .error .io
    | .convert => match convert d with
      | none => .error .attr
      | some d => .ok d
    | .asIs => .ok d
  match get? "version".toList d with
  | none => decide none
  | some (.str v) => decide (some v)
  | some v => if v.truthy then .error .attr else decide none

/-- nxt_io.py:104-107: the entries added to the data of a file. -/
def located (path real : Str) (d : Dict Str Val) : Dict Str Val :=
  let d := set "filepath".toList (.str path) d
  let d := set "real_path".toList (.str real) d
  set "name".toList ((get? "name".toList d).getD (.str (splitext (FilePaths.basename path)).1)) d

/-- nxt_io.py:53-112 `load_file_data`.  `file_type` is always `ASCII` (line 72), so every file is read
as JSON. -/
def loadFileData (expand : Str → Str) (expanders : List (Str → Str))
    (convert : Dict Str Val → Option (Dict Str Val)) (files : Files) (path : Str) :
    Except Err (Dict Str Val) :=
  let real := realPath expand expanders files path
  if (splitext real).2 ∉ EXTS then .error .io
  else match get? real files with
    | none => .error .io
    | some (.pickle _) => .error .decode
    | some .cut => .error .decode
    | some (.json d) =>
      match upgrade convert (byteify (decodeDict d)) with
      | .error e => .error e
      | .ok d => .ok (located path real d)

/-! ### Layers -/

/-- constants.py:77. -/
def UNTITLED : Str := "untitled".toList

/-- A layer together with where it came from. -/
structure FileLayer where
  st : LayerState
  filepath : Option Str
  realPath : Option Str

/-- nxt_layer.py:928-932 `propegate_real_path`; `descendants()` leaves the world node out
(nxt_layer.py:483-488). -/
def propagate (real : Str) (nodes : Dict Str (Dict Str Val)) : Dict Str (Dict Str Val) :=
  nodes.map (fun pn => if pn.1 = Path.WORLD then pn else (pn.1, set A_SOURCE_LAYER (.str real) pn.2))

/-- nxt_layer.py:826: `filepath or self.real_path`. -/
def target (L : FileLayer) (arg : Option Str) : Option Str :=
  match arg with
  | some (c :: p) => some (c :: p)
  | _ => L.realPath

/-- nxt_layer.py:828-830: an untitled layer is named after the file. -/
def named (p : Str) (s : LayerState) : LayerState :=
  if s.alias = UNTITLED then { s with alias := (splitext (FilePaths.basename p)).1 } else s

/-- nxt_layer.py:820-844 `SpecLayer.save`: what it returns or raises, the layer and the files
afterwards.  Without a path `os.path.basename(None)` raises. -/
def saveLayer (builtins : List Str) (files : Files) (L : FileLayer) (arg : Option Str) :
    Except Err (Option (Dict Str Val)) × FileLayer × Files :=
  match target L arg with
  | none => (.error .type, L, files)
  | some p =>
    let L := { L with st := named p L.st }
    match getSaveData builtins Version.VERSION_STR L.st with
    | none => (.error .attr, L, files)
    | some data =>
      if !(Val.dict data).serialisable then (.ok none, L, files)
      else match saveFileData files data (some p) false with
        | (.error e, files) => (.error e, L, files)
        | (.ok _, files) =>
          if some p ≠ L.realPath then
            (.ok (some data),
              { L with realPath := some p, st := { L.st with nodes := propagate p L.st.nodes } }, files)
          else (.ok (some data), L, files)

/-- A text entry. -/
def textEntry (k : Str) (d : Dict Str Val) : Option Str :=
  match get? k d with
  | some (.str s) => some s
  | _ => none

/-- nxt_layer.py:83-146 `SpecLayer.load_from_filepath` and `__init__` on the data of a file. -/
def openLayer (expand : Str → Str) (expanders : List (Str → Str))
    (convert : Dict Str Val → Option (Dict Str Val)) (files : Files) (path : Str) :
    Except Err FileLayer :=
  match loadFileData expand expanders convert files path with
  | .error e => .error e
  | .ok d =>
    match loadLayer (textEntry "real_path".toList d) (FilePaths.basename path) d with
    | none => .error .attr
    | some s => .ok { st := s, filepath := textEntry "filepath".toList d,
                      realPath := textEntry "real_path".toList d }

end Nxt.Disk
