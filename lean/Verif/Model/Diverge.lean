import Verif.Model.Comp
import Verif.Model.Path
/-!
# Model of `_check_if_inst_diverges` (nxt/stage.py)

An instance path is text or `None`; anything else is taken as `None`.  Instance paths of composite nodes are given by path;
a path without a composite node gives `None` (`getattr(None, …, None)`).
-/
namespace Nxt.Diverge
open Dict NodeData

/-- The instance path of a spec node, stage.py:2177-2179. -/
def instText (n : Dict Str Val) : Option Str :=
  match getAttr n A_INSTANCE with
  | .str s => some s
  | _ => none

/-- stage.py:2166-2169, one path. -/
def keepInstance (comp cur : Dict Str Str) (p : Str) : Dict Str Str :=
  match get? p comp with
  | some (c :: i) => set p (c :: i) cur
  | _ => cur

/-- stage.py:2163-2169: the instance paths of the composite nodes above which are not empty. -/
def currentInstances (comp : Dict Str Str) (paths : List Str) : Dict Str Str := paths.reverse.foldl (keepInstance comp) []

/-- stage.py:2175-2184: one layer at one path. -/
def differs (cur : Dict Str Str) (p : Str) (layer : Comp.LayerNodes) : Bool :=
  match get? p layer with
  | none => false
  | some n => decide (get? p cur ≠ instText n) && ((get? p cur).isSome && (instText n).isSome)

/-- stage.py:2150-2192 `_check_if_inst_diverges`. -/
def diverges (comp : Dict Str Str) (layers : List Comp.LayerNodes) (path : Str) : Bool :=
  let paths := Path.allAncestorPaths path ++ [Path.WORLD]
  let cur := currentInstances comp paths
  paths.reverse.any (fun p => layers.any (differs cur p))

end Nxt.Diverge
