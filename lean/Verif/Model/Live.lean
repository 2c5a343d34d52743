import Verif.Model.Flow
import Verif.Model.Resolve
/-!
# Model of references while nodes are run (nxt/stage.py)

`run` reads the attributes of a node with `get_attr_as_real_data_type`, which resolves the references in a text on the
runtime layer as it is then.  Here the resolver of `Verif.Model.Resolve` reads the classes of `Verif.Model.Flow`.

Simplifications: those of the two models.
-/
namespace Nxt.Live
open Dict NodeData Mro Rt Flow

/-- What is read besides the nodes: `str` of a value which is no text, the colour of the source layer of a node, files,
plugins, and the recursion limit. -/
structure Around where
  text : Val → Str
  color : Nat → Option Str
  expandFile : Str → Str
  fileExists : Str → Bool
  contents : Str → Option Str
  plugins : List (Resolve.Plugin Nat)
  limit : Nat

/-- nxt_layer.py:213-214 `get_node_path`; the empty path is `None`. -/
def pathOf (nodes : Dict Str Nat) (c : Nat) : Str := ((nodes.find? (fun e => e.2 = c)).map (fun e => e.1)).getD []

/-- `getattr` on a node of the runtime layer, as the resolver sees it (stage.py:1676-1706). -/
def attrOf (text : Val → Str) : Option Val → Resolve.Attr
  | none => .missing
  | some .none => .none
  | some (.str s) => .str s
  | some v => .other v.truthy (text v)

/-- The runtime layer as `resolve` reads it. -/
def graphOf (x : Around) (builtins : List Str) (nodes : Dict Str Nat) (g : Classes) : Resolve.Graph Nat where
  pathOf := pathOf nodes
  lookup := fun p => get? p nodes
  attr := fun c a => attrOf x.text (g.attr? c a)
  isProtected := fun a => decide (a ∈ protectedNames builtins)
  color := x.color
  expandFile := x.expandFile
  fileExists := x.fileExists
  contents := x.contents
  plugins := x.plugins

/-- stage.py:2229 `self.resolve(node, unresolved, layer)`; `none` is an exception. -/
def resolveNow (x : Around) (builtins : List Str) (nodes : Dict Str Nat) (g : Classes) (c : Nat) (t : Str) : Option Str :=
  match Resolve.resolve (graphOf x builtins nodes g) x.limit c t with
  | .ok s => some s
  | _ => none

/-- An execution in which texts are resolved on the runtime layer. -/
def live (x : Around) (nodes : Dict Str Nat) (e : Env) : Env := { e with resolve := resolveNow x e.builtins nodes }

end Nxt.Live
