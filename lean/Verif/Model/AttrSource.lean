import Verif.Model.Build
import Verif.Model.Names
/-!
# Model of the reading of attribute sources, comments and attribute data (nxt/stage.py, nxt/nxt_layer.py)

The stage has its layers with their real paths, strong to weak.  Composed nodes are the classes of `Verif.Model.Build`.

Not modelled: messages.
-/
namespace Nxt.AttrSource
open Dict NodeData Mro

/-- nxt_layer.py:181-184 with 1115-1144, one node in `refresh`: the sources of its local attributes are set.  A muted layer has
no local attributes. -/
def signNode (prot : List Str) (muted : Bool) (real : Option Str) (path : Str) (n : Dict Str Val) : Dict Str Val :=
  (Names.localAttrNames prot (if muted then [] else [keys n])).foldl (fun n a => set (a ++ M_SOURCE) (.src real path) n) n

/-- nxt_layer.py:178-184, what `refresh` does to the nodes of a layer. -/
def refresh (prot : List Str) (muted : Bool) (real : Option Str) (nodes : Comp.LayerNodes) : Comp.LayerNodes :=
  nodes.map (fun e => (e.1, signNode prot muted real e.1 e.2))

/-- stage.py:1708-1722 `get_node_attr_source`; no source gives two empty texts.  `none` when the attribute with that name
is not a source, which raises. -/
def attrSource (g : Classes) (c : Nat) (a : Str) : Option (Option Str × Str) :=
  match g.attr? c (a ++ M_SOURCE) with
  | none => some (some [], [])
  | some (.src l p) => some (l, p)
  | some _ => none

/-- stage.py:1587-1598 `lookup_layer`. -/
def lookupLayer {α : Type} (layers : List (Option Str × α)) (real : Option Str) : Option α :=
  (layers.find? (fun l => l.1 = real)).map Prod.snd

/-- stage.py:1600-1606 `get_node_source_layer`; `none` also stands for a missing attribute, which raises. -/
def sourceLayer {α : Type} (layers : List (Option Str × α)) (g : Classes) (c : Nat) : Option α :=
  match g.attr? c A_SOURCE_LAYER with
  | some (.str l) => lookupLayer layers (some l)
  | some .none => lookupLayer layers none
  | _ => none

/-- stage.py:1618-1624 `get_node_attr_comment`. -/
def attrComment (g : Classes) (c : Nat) (a : Str) : Val := g.attr c (a ++ M_COMMENT)

/-- `s.split(m)[0]` for a text `m` which is not empty. -/
def before (m : Str) : Str → Str
  | [] => []
  | x :: s => if m.isPrefixOf (x :: s) then [] else x :: before m s

/-- stage.py:1725-1728: the attribute which the name of a comment, type or source belongs to. -/
def baseAttr (a : Str) : Str :=
  match METAS.find? (fun m => Py.endsWith a m) with
  | some m => before m a
  | none => a

/-- stage.py:1739-1742: one further attribute, under its short name. -/
def metaEntry (g : Classes) (c : Nat) (a : Str) (k m : Str) : Dict Str Val :=
  match g.attr? c (a ++ m) with
  | some v => [(k, v)]
  | none => []

/-- stage.py:1724-1747 `get_node_attr_data`, sorted by names as in line 1744. -/
def attrData (g : Classes) (c : Nat) (name : Str) : Dict Str Val :=
  match g.attr? c (baseAttr name) with
  | none => []
  | some v => metaEntry g c (baseAttr name) K_COMMENT M_COMMENT ++ metaEntry g c (baseAttr name) K_SOURCE M_SOURCE ++
      metaEntry g c (baseAttr name) K_TYPE M_TYPE ++ [(K_VALUE, v)]

end Nxt.AttrSource
