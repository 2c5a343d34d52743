import Verif.Model.Mro
import Verif.Model.Comp
import Verif.Model.Dirty
import Verif.Model.Lists
/-!
# Model of `post_proxy_comp`: parents and instance sources as base classes (nxt/stage.py)

A composite node is a class (see `Verif.Model.Mro`); `nodes` is `comp_layer._nodes_path_as_key`.  A failed
assignment of bases ends the loop with an exception, which `build_stage` catches: the composition is then
marked as failed (`comp_layer.failure`, stage.py:2662-2669).  That is `none` here; what was done before
the exception stays done in the code.

Not modelled: the child cache (lines 3154-3161, see `Verif.Model.ChildCache`), the counts and messages.
-/
namespace Nxt.Inherit
open Dict NodeData Mro

/-- stage.py:3120-3124, the loop climbing to an existing ancestor, at most `fuel` steps (the path gets
shorter each time). -/
def climb (nodes : Dict Str Nat) : Nat → Str → Str
  | 0, p => p
  | fuel + 1, p =>
    if p = Path.WORLD then p
    else if (get? (Path.parentPath p) nodes).isSome then Path.parentPath p
    else climb nodes fuel (Path.parentPath p)

/-- stage.py:3114-3125: the path of the base for the parent arc. -/
def parentBasePath (nodes : Dict Str Nat) (pp : Str) : Str :=
  if (get? pp nodes).isSome then pp else climb nodes (pp.length + 1) pp

/-- stage.py:3110-3176 for the arc `PARENT`, one node; `INHERITANCE_MAP[PARENT]` is empty. -/
def parentArc (nodes : Dict Str Nat) (g : Classes) (pc : Str × Nat) : Option Classes :=
  match g.attr pc.2 A_PARENT with
  | .str pp =>
    if pp = [] then some g
    else match get? (parentBasePath nodes pp) nodes with
      | none => some g
      | some b => g.addBase pc.2 b
  | _ => some g

/-- stage.py:44-46: the attributes composed by the instance arc. -/
def OVERLOAD : List Str := [A_ENABLED, A_COMMENT, A_CODE]

/-- `setattr(c, k, v)`. -/
def setAttr (g : Classes) (c : Nat) (k : Str) (v : Val) : Classes :=
  { g with own := fun d => if d = c then set k v (g.own c) else g.own d }

/-- The attribute source set by line 3171; a layer which is not a text counts as none. -/
def source (g : Classes) (b : Nat) (path : Str) : Val :=
  .src (match g.attr b A_SOURCE_LAYER with | .str s => some s | _ => none) path

/-- stage.py:3162-3171, one attribute. -/
def overloadAttr (path : Str) (c b : Nat) (g : Classes) (a : Str) : Classes :=
  if (g.attr c a).hasOpinion then g
  else setAttr (setAttr g c a (g.attr b a)) c (a ++ M_SOURCE) (source g b path)

/-- stage.py:3110-3176 for the arc `INSTANCE`, one node. -/
def instanceArc (nodes : Dict Str Nat) (g : Classes) (pc : Str × Nat) : Option Classes :=
  match g.attr pc.2 A_INSTANCE with
  | .str ip =>
    if ip = Path.WORLD then some g
    else match get? ip nodes with
      | none => some g
      | some b => (OVERLOAD.foldl (overloadAttr pc.1 pc.2 b) g).safeAddBase pc.2 b
  | _ => some g

/-- stage.py:3103-3183 `post_proxy_comp`: both arcs over the nodes in the order of `sort_instances`. -/
def postProxy (nodes : Dict Str Nat) (order : List (Str × Nat)) (g : Classes) : Option Classes :=
  (order.foldlM (parentArc nodes) g).bind (order.foldlM (instanceArc nodes))

/-! ### The order of the nodes -/

/-- The instance path of the node at a path, as read by `get_instance_sources`. -/
def instPath (nodes : Dict Str Nat) (g : Classes) (p : Str) : Option Str :=
  match get? p nodes with
  | some c => match g.attr c A_INSTANCE with | .str s => some s | _ => none
  | none => none

/-- stage.py:3455-3473, the trace of a node; it stops within as many steps as there are nodes (C35). -/
def trace (nodes : Dict Str Nat) (g : Classes) (p : Str) : List Str :=
  (Dirty.instanceSources (keys nodes) (instPath nodes g) (nodes.length + 1) p []).getD []

/-- stage.py:3408-3430 `sort_instances` without `deep_sort`: the node table sorted by trace length. -/
def sortInstances (nodes : Dict Str Nat) (table : List (Str × Nat)) (g : Classes) : List (Str × Nat) :=
  Lists.sortMulti (fun pc => (trace nodes g pc.1).length) table

/-! ### Making the classes -/

/-- nxt_node.py:165-180: a new composite class with its spec classes, each with the base `Node`. -/
def addNode (g : Classes) (own : Dict Str Val) (specs : List (Dict Str Val)) : Classes :=
  { size := g.size + 1 + specs.length
    bases := fun d =>
      if d < g.size then g.bases d
      else if d = g.size then List.range' (g.size + 1) specs.length
      else if d < g.size + 1 + specs.length then [0] else []
    own := fun d =>
      if d < g.size then g.own d
      else if d = g.size then own
      else (specs[d - (g.size + 1)]?).getD [] }

/-- Only the class `Node`, nxt_node.py:92-97. -/
def onlyNode : Classes := { size := 1, bases := fun _ => [], own := fun d => if d = 0 then NODE_CLASS else [] }

/-- The classes after the first passes: nodes with their own tables and the tables of their specs, strong
to weak. -/
def build (nodes : List (Str × Dict Str Val × List (Dict Str Val))) : Classes × Dict Str Nat :=
  nodes.foldl (fun st n => (addNode st.1 n.2.1 n.2.2, set n.1 st.1.size st.2)) (onlyNode, [])

/-- stage.py:2678-2757: the classes made by `comp_pre_proxies` from the nodes of the layers. -/
def classesOf (layers : List Comp.LayerNodes) : Classes × Dict Str Nat :=
  build ((Comp.compPre layers).map (fun e => (e.1, e.2.own, e.2.bases)))

end Nxt.Inherit
