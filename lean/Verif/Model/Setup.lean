import Verif.Model.Flow
/-!
# Model of preparing a layer for an execution (nxt/stage.py)

Before its nodes are run, a composed layer is made a runtime layer: nodes learn their paths, the world node is added
if there is none, parameters are set, and the code of the world is run.

Simplifications: as in `Verif.Model.Flow`; the code of the world works on the table of the world and on the globals
only; the objects in the globals are given by a function.
-/
namespace Nxt.Setup
open Dict NodeData Mro Rt Flow

/-- stage.py:3972-3974, with nxt_layer.py:489-495: every node but the world is given its path. -/
def setPaths (nodes : Dict Str Nat) (g : Classes) : Classes :=
  (nodes.filter (fun e => e.1 ≠ Path.WORLD)).foldl
    (fun g e => setOwn g e.2 (set A_NODE_PATH (.str e.1) (g.own e.2))) g

/-- stage.py:3976-3982 with 544-576 `add_node_to_comp_layer`: the world node, made of two new classes if there is
none.  The child cache is the subject of `Verif.Model.ChildCache`. -/
def addWorld (nodes : Dict Str Nat) (g : Classes) : Dict Str Nat × Classes × Nat :=
  match get? Path.WORLD nodes with
  | some c => (nodes, g, c)
  | none =>
    let spec := g.size
    let comp := g.size + 1
    (set Path.WORLD comp nodes,
      { size := g.size + 2
        bases := fun d => if d = spec then [0] else if d = comp then [spec] else g.bases d
        own := fun d => if d = spec then [(A_NAME, .str Path.WORLD), (A_PARENT, .str [])]
          else if d = comp then [] else g.own d },
      comp)

/-- stage.py:3930-3954 `set_runtime_parameters` on the classes of the runtime layer, see `Rt.setParams`. -/
def paramsTo {V : Type} (text : V → Str) (nodes : Dict Str Nat) : Dict Key V → Classes → Classes × Bool
  | [], g => (g, false)
  | (.other _, _) :: ps, g => paramsTo text nodes ps g
  | (.str k, v) :: ps, g =>
    match get? (Path.nodePathFromAttrPath k) nodes with
    | none => paramsTo text nodes ps g
    | some c =>
      match Path.attrNameFromAttrPath k with
      | none => (g, true)
      | some a => paramsTo text nodes ps (setOwn g c (set a (.str (text v)) (g.own c)))

/-- stage.py:3997-4006: the globals of the console; `obj` are the objects, `world` is the world node. -/
def consoleGlobals (obj : Str → Val) (world : Val) : Dict Str Val :=
  [("STAGE".toList, world), ("__stage__".toList, obj "__stage__".toList), ("nxt_path".toList, obj "nxt_path".toList),
   ("w".toList, obj "w".toList), ("types".toList, obj "types".toList), ("self".toList, world),
   ("execute".toList, obj "execute".toList), ("ExitNode".toList, obj "ExitNode".toList),
   ("ExitGraph".toList, obj "ExitGraph".toList)]

/-- How preparing ends: ready, a parameter without an attribute name (`TypeError`), or an exception of the code of the
world. -/
inductive SetupEnd where
  | ready
  | badParam
  | raised (o : Exec.Outcome)
deriving DecidableEq

/-- What the code of the world does with the table of the world, which it gets at as `self` or `STAGE`, and with the
globals. -/
abbrev WorldCode := Str → RtNode → Dict Str Val → Dict Str Val × Dict Str Val × Exec.Outcome

/-- stage.py:3956-4012 `setup_runtime_layer`: how it ends, the nodes and the runtime layer.  The world's code is run
as it is, without a frame and without `clean_globals`. -/
def setup {V : Type} (text : V → Str) (obj : Str → Val) (world : Val) (init : WorldCode)
    (code : Classes → Nat → Str) (nodes : Dict Str Nat) (ps : Dict Key V) (g : Classes) (globals : Dict Str Val) :
    SetupEnd × Dict Str Nat × State :=
  let (nodes', g', w) := addWorld nodes (setPaths nodes g)
  let q := paramsTo text nodes' ps g'
  if q.2 then (.badParam, nodes', ⟨q.1, globals⟩)
  else
    let r := init (code q.1 w) (rtNode q.1 w) (consoleGlobals obj world)
    let s : State := ⟨setOwn q.1 w r.1, r.2.1⟩
    match r.2.2 with
    | .ok => (.ready, nodes', s)
    | o => (.raised o, nodes', s)

/-- stage.py:3793-3847 `execute_nodes` on a layer which is no runtime layer yet: lines 3808-3811 prepare it outside of
the `try` of the loop. -/
def executeNew {V : Type} (e : Env) (text : V → Str) (obj : Str → Val) (world : Val) (init : WorldCode)
    (nodes : Dict Str Nat) (ps : Dict Key V) (g : Classes) (globals : Dict Str Val) (clock : State → Int)
    (paths : List Str) : Except SetupEnd (Exec.End × State × Exec.Times × List (Str × Exec.Outcome)) :=
  let r := setup text obj world init e.code nodes ps g globals
  match r.1 with
  | .ready => .ok (execute e r.2.1 clock paths r.2.2 [])
  | x => .error x

end Nxt.Setup
