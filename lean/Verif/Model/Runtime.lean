import Verif.Model.Dict
import Verif.Model.Value
import Verif.Model.Path
import Verif.Model.NodeData
import Verif.Model.Exec
/-!
# Model of running a node, cleaning globals and runtime parameters (nxt/stage.py, nxt/cli.py)
-/
namespace Nxt.Rt
open Dict Py NodeData

/-! ### `clean_globals` -/

/-- stage.py:4132: lines starting with `#` or a quote are dropped. -/
def codeLine (l : Str) : Bool := !(startsWith l ['#'] || startsWith l ['\''] || startsWith l ['"'])

/-- stage.py:4134-4140: the keys which are kept; `cur` are the keys now. -/
def safeKeys (lines good cur : List Str) : List Str :=
  good ++ (cur.filter (fun k => k ∉ good)).filter
    (fun k => (lines.filter codeLine).any (fun l => contains l ("global ".toList ++ k)))

/-- stage.py:4125-4142 `clean_globals`. -/
def cleanGlobals {V : Type} (lines good : List Str) (g : Dict Str V) : Dict Str V :=
  ((keys g).filter (fun k => k ∉ safeKeys lines good (keys g))).foldl (fun g k => erase k g) g

/-! ### `run` -/

/-- A runtime node: a class with its own attributes and those found in its bases. -/
structure RtNode where
  own : Dict Str Val
  inherited : Dict Str Val

/-- `dir(rt_node)`: all attribute names.  Python sorts them; the order plays no part here. -/
def RtNode.dir (n : RtNode) : List Str := keys n.own ++ (keys n.inherited).filter (fun k => k ∉ keys n.own)

/-- nxt_node.py:54 `INTERNAL_ATTRS.PROTECTED`; `builtins` are the names every class has. -/
def protectedNames (builtins : List Str) : List Str := builtins ++ TRACKED ++ UNTRACKED ++ [A_CACHED]

/-- stage.py:4077-4080: the attributes left out. -/
def skipped (builtins : List Str) (a : Str) : Bool := decide (a ∈ protectedNames builtins) || endsWith a "__nxt".toList

/-- How `run` ends.  `attrError`: an attribute of the frame is gone when values are pushed back. -/
inductive RunEnd where
  | returned | exitNode | exitGraph | graphError | attrError
deriving DecidableEq

/-- What the code sees and changes: the frame object `self` and the globals. -/
structure Frame where
  self : Dict Str Val
  globals : Dict Str Val

/-- stage.py:4076-4091, one attribute: the source is set on the node, the value goes to the cache and to
the frame.  `real` is `get_attr_as_real_data_type`, a function of the attribute name here; copies are
taken to succeed. -/
def prepare (real : Str → Val) (src : Val) (st : RtNode × Dict Str Val × Dict Str Val) (a : Str) :
    RtNode × Dict Str Val × Dict Str Val :=
  ({ st.1 with own := set (a ++ M_SOURCE) src st.1.own }, set a (real a) st.2.1, set a (real a) st.2.2)

/-- stage.py:4115-4122: pushing changed values back; `eq` is Python's `==`.  The flag tells that an attribute
was missing from the frame. -/
def pushBack (eq : Val → Val → Bool) (frame : Dict Str Val) : Dict Str Val → RtNode → RtNode × Bool
  | [], n => (n, false)
  | (a, pre) :: rest, n =>
    match get? a frame with
    | none => (n, true)
    | some post =>
      if eq pre post then pushBack eq frame rest n
      else pushBack eq frame rest { n with own := set a post n.own }

/-- stage.py:4058-4125 `run`.  `body` is the effect of the code with its outcome; `asGlobal` is
`console.run_as_global`; `code` is the resolved code text and `lines` its lines. -/
def run (builtins : List Str) (real : Str → Val) (eq : Val → Val → Bool) (layer : Option Str) (path : Str)
    (code : Str) (lines : List Str) (asGlobal : Bool) (selfObj : Val) (body : Frame → Frame × Exec.Outcome)
    (n : RtNode) (g : Dict Str Val) : RunEnd × RtNode × Dict Str Val :=
  let n := { n with own := set A_CACHED (.str code) n.own }
  let attrs := n.dir.filter (fun a => !skipped builtins a)
  let frame := set A_CACHED (.str code) (set A_NODE_PATH (.str path) [])
  let st := attrs.foldl (prepare real (.src layer path)) (n, [], frame)
  let good := keys g
  let r := body ⟨st.2.2, set "self".toList selfObj g⟩
  let g' := if asGlobal then r.1.globals else cleanGlobals lines good r.1.globals
  match r.2 with
  | .error => (.graphError, st.1, g')
  | o =>
    let p := pushBack eq r.1.self st.2.1 st.1
    if p.2 then (.attrError, p.1, g')
    else match o with
      | .exitNode => (.exitNode, p.1, g')
      | .exitGraph => (.exitGraph, p.1, g')
      | _ => (.returned, p.1, g')

/-! ### `set_runtime_parameters` -/

/-- A key of a parameter dict. -/
inductive Key where
  | str (s : Str)
  | other (id : Nat)
deriving DecidableEq

/-- stage.py:3930-3954 `set_runtime_parameters`.  `text` is `str`.  The flag tells that an attribute name
was `None`, which `getattr` refuses with a `TypeError`. -/
def setParams {V : Type} (text : V → Str) : Dict Key V → Dict Str (Dict Str Val) → Dict Str (Dict Str Val) × Bool
  | [], ns => (ns, false)
  | (.other _, _) :: ps, ns => setParams text ps ns
  | (.str k, v) :: ps, ns =>
    match get? (Path.nodePathFromAttrPath k) ns with
    | none => setParams text ps ns
    | some n =>
      match Path.attrNameFromAttrPath k with
      | none => (ns, true)
      | some a => setParams text ps (set (Path.nodePathFromAttrPath k) (set a (.str (text v)) n) ns)

/-! ### Parameters on the command line -/

/-- What `execute` of nxt/cli.py makes of its parameter list. -/
inductive CliParams where
  | file (path : Str)
  | params (d : Dict Str Str)
  | oddCount
  | badKey (k : Str)
deriving DecidableEq

/-- cli.py:125-137, the loop over pairs. -/
def cliLoop : List Str → Dict Str Str → CliParams
  | k :: v :: rest, d => if startsWith k ['/'] then cliLoop rest (set k v d) else .badKey k
  | _, d => .params d

/-- cli.py:110-137 of `execute`. -/
def cliParams (args : List Str) : CliParams :=
  match args with
  | [p] => .file p
  | _ => if args.length % 2 ≠ 0 then .oddCount else cliLoop args []

end Nxt.Rt
