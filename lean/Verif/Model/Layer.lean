import Verif.Model.Value
import Verif.Model.Lists
/-!
# Model of layer state: mute/solo/alias/colour/lock opinions and save data ordering
(`nxt/nxt_layer.py`)
-/
namespace Nxt.Layer
open Dict

/-! ### Overrides -/

/-- nxt_layer.py:1146-1153 `get_comped_layer_overs`.  `chain` holds the override tables of the layer
itself, its parent, …, up to the top layer; each is applied over the ones before. -/
def compedOvers {K V : Type} [DecidableEq K] (chain : List (Dict K V)) : Dict K V :=
  chain.foldl update []

/-- The inner dict of `comp_overrides`: which of the two states are given. -/
structure Over where
  mute : Option Bool := none
  solo : Option Bool := none
  deriving DecidableEq, Repr

/-- nxt_layer.py:628-634 `get_muted`; `loc` is the layer's own state. -/
def getMuted {K : Type} [DecidableEq K] (loc : Bool) (fp : K) (chain : List (Dict K Over)) : Bool :=
  (((get? fp (compedOvers chain)).getD {}).mute).getD loc

/-- nxt_layer.py:646-652 `get_soloed`. -/
def getSoloed {K : Type} [DecidableEq K] (loc : Bool) (fp : K) (chain : List (Dict K Over)) : Bool :=
  (((get? fp (compedOvers chain)).getD {}).solo).getD loc

/-- nxt_layer.py:639-644 `set_mute_over` on a layer without parent (the top layer): the new table. -/
def setMuteOver {K : Type} [DecidableEq K] (table : Dict K Over) (fp : K) (state : Bool) : Dict K Over :=
  let ref := compedOvers [table]
  let r := (get? fp ref).getD {}
  set fp { r with mute := some state } ref

/-- nxt_layer.py:657-662 `set_solo_over` on the top layer. -/
def setSoloOver {K : Type} [DecidableEq K] (table : Dict K Over) (fp : K) (state : Bool) : Dict K Over :=
  let ref := compedOvers [table]
  let r := (get? fp ref).getD {}
  set fp { r with solo := some state } ref

/-- nxt_layer.py:698-723 `_get_meta_attr` with `local=False`: the comped override, else the local
value or `None`. -/
def getMetaAttr {K V : Type} [DecidableEq K] (loc : Option V) (fp : K) (chain : List (Dict K V))
    (fallbackToLocal : Bool) : Option V :=
  match get? fp (compedOvers chain) with
  | some v => some v
  | none => if fallbackToLocal then loc else none

/-- The override tables of one layer. -/
structure Tables (K : Type) where
  aliases : Dict K Str := []
  colors : Dict K Str := []
  locks : Dict K Bool := []

/-- Result of a setter: `noRoot` is the `AttributeError` on `None` after the logged error,
`keyError` a failing `pop`. -/
inductive SetRes (α : Type) where
  | noRoot
  | keyError
  | ok (a : α)

/-- nxt_layer.py:744-757 `set_alias_over`, on the root's tables (`none` when the layer is itself the
top layer, see `get_root_parent`, 1156-1162). -/
def setAliasOver {K : Type} [DecidableEq K] (root : Option (Tables K)) (fp : K) (v : Option Str) :
    SetRes (Tables K) :=
  match root with
  | none => .noRoot
  | some r =>
    match v with
    | none => .ok (if fp ∈ keys r.aliases then { r with aliases := erase fp r.aliases } else r)
    | some a => .ok { r with aliases := set fp a r.aliases }

/-- nxt_layer.py:773-785 `set_color_over`. -/
def setColorOver {K : Type} [DecidableEq K] (root : Option (Tables K)) (fp : K) (v : Option Str) :
    SetRes (Tables K) :=
  match root with
  | none => .noRoot
  | some r =>
    match v with
    | none => .ok (if fp ∈ keys r.colors then { r with colors := erase fp r.colors } else r)
    | some a => .ok { r with colors := set fp a r.colors }

/-- nxt_layer.py:806-818 `set_locked_over`.  The test for removal looks in the colour table. -/
def setLockedOver {K : Type} [DecidableEq K] (root : Option (Tables K)) (fp : K) (v : Option Bool) :
    SetRes (Tables K) :=
  match root with
  | none => .noRoot
  | some r =>
    match v with
    | none =>
      if fp ∈ keys r.colors then
        if fp ∈ keys r.locks then .ok { r with locks := erase fp r.locks } else .keyError
      else .ok r
    | some b => .ok { r with locks := set fp b r.locks }

/-! ### Active layers -/

/-- nxt_layer.py:1093-1101 `get_soloed_layers`. -/
def soloedLayers {L : Type} (soloed : L → Bool) (ls : List L) : List L := ls.filter soloed

/-- nxt_layer.py:1071-1090 `get_active_layers`. -/
def activeLayers {L : Type} (muted soloed : L → Bool) (ls : List L) : List L :=
  let potential := if (soloedLayers soloed ls).isEmpty then ls else soloedLayers soloed ls
  potential.foldl (fun res l => if muted l then res else res ++ [l]) []

/-! ### Ordering of save data -/

/-- nxt_layer.py:901-904 `keys_order`. -/
def SAVE_ORDER : List Str :=
  ["version", "alias", "color", "mute", "solo", "references", "comp_overrides", "meta_data",
   "nodes", "real_path"].map String.toList

/-- nxt_layer.py:908-911, first loop: result and the keys left. -/
def orderLoop {V : Type} (data : Dict Str V) : List Str → Dict Str V × List Str → Dict Str V × List Str
  | [], st => st
  | k :: ks, (res, left) =>
    if k ∈ left then
      match get? k data with
      | some v => orderLoop data ks (set k v res, left.erase k)
      | none => orderLoop data ks (res, left)
    else orderLoop data ks (res, left)

/-- The loop over leftover keys, nxt_layer.py:913-914 and nxt_node.py:305-306. -/
def leftoverLoop {V : Type} (data : Dict Str V) : List Str → Dict Str V → Dict Str V
  | [], res => res
  | k :: ks, res =>
    match get? k data with
    | some v => leftoverLoop data ks (set k v res)
    | none => leftoverLoop data ks res

/-- nxt_layer.py:892-915 `order_save_dict`. -/
def orderSaveDict {V : Type} (data : Dict Str V) : Dict Str V :=
  let (res, left) := orderLoop data SAVE_ORDER ([], keys data)
  leftoverLoop data left res

/-- nxt_layer.py:1165-1179 `order_nodes_dict`. -/
def orderNodesDict {V : Type} (data : Dict Str V) : Dict Str V :=
  leftoverLoop data ((keys data).mergeSort strLe) []

/-- Save keys of the internal attributes in nxt_node.py:58-59 `INTERNAL_ATTRS.SAVED`. -/
def SAVED_KEYS : List Str :=
  ["start_point", "instance", "execute_in", "child_order", "enabled", "comment", "code"].map
    String.toList

/-- `SAVE_KEY.ATTRS`. -/
def ATTRS : Str := "attrs".toList
/-- Save key of `INTERNAL_ATTRS.COMPUTE`. -/
def CODE : Str := "code".toList

/-- nxt_node.py:298-299: user attributes go right before the code. -/
def insertAttrs (data : Dict Str Val) (k : Str) (res : Dict Str Val) : Dict Str Val :=
  match get? ATTRS data with
  | some a => if k = CODE ∧ a.truthy = true then set ATTRS a res else res
  | none => res

/-- nxt_node.py:297-304, the loop over `SAVED`: result and the keys left. -/
def orderNodeLoop (data : Dict Str Val) :
    List Str → Dict Str Val × List Str → Dict Str Val × List Str
  | [], st => st
  | k :: ks, (res, left) =>
    match get? k data with
    | some v => orderNodeLoop data ks (set k v (insertAttrs data k res), left.erase k)
    | none => orderNodeLoop data ks (insertAttrs data k res, left)

/-- nxt_node.py:287-307 `_order_node_dict`. -/
def orderNodeDict (data : Dict Str Val) : Dict Str Val :=
  let (res, left) := orderNodeLoop data SAVED_KEYS ([], keys data)
  leftoverLoop data left res

end Nxt.Layer
