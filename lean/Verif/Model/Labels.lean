import Verif.Model.Layer
/-!
# Model of the aliases, colours and locks of a whole stage (nxt/nxt_layer.py, nxt/stage.py)

The tables of overrides are kept in the layers; an override is written to the top of the tree of layers.
-/
namespace Nxt.Labels
open Dict Layer

/-- nxt_layer.py:110-139: what a layer holds of this; `parent` is the place of the parent layer in the list. -/
structure Labelled (K : Type) where
  path : K
  parent : Option Nat
  alias : Option Str
  color : Option Str
  lock : Option Bool
  tables : Tables K

/-- nxt_layer.py:1149-1152 and 1157-1161, the walk over `parent_layer`: the layers met, at most `fuel` of them. -/
def walk {K : Type} (layers : List (Labelled K)) : Nat → Nat → List Nat
  | 0, _ => []
  | fuel + 1, i =>
    match layers[i]? with
    | none => []
    | some l =>
      match l.parent with
      | none => [i]
      | some p => i :: walk layers fuel p

/-- nxt_layer.py:1156-1162 `get_root_parent`. -/
def rootParent {K : Type} (layers : List (Labelled K)) (i : Nat) : Option Nat :=
  match layers[i]? with
  | none => none
  | some l =>
    match l.parent with
    | none => none
    | some p => (walk layers layers.length p).getLast?

/-- One of the override tables of a layer. -/
def tableOf {K V : Type} (tab : Tables K → Dict K V) (layers : List (Labelled K)) (i : Nat) : Dict K V :=
  match layers[i]? with
  | none => []
  | some l => tab l.tables

variable {K : Type} [DecidableEq K]

/-- nxt_layer.py:698-723 `_get_meta_attr`; `own` is the entry of the layer itself. -/
def metaAttr {V : Type} (tab : Tables K → Dict K V) (own : Labelled K → Option V) (layers : List (Labelled K))
    (i : Nat) (isLocal fallback : Bool) : Option V :=
  match layers[i]? with
  | none => none
  | some l =>
    if isLocal then own l
    else getMetaAttr (own l) l.path ((walk layers layers.length i).map (tableOf tab layers)) fallback

/-- nxt_layer.py:725-739 `get_alias`. -/
def getAlias (layers : List (Labelled K)) (i : Nat) (isLocal fallback : Bool) : Option Str :=
  metaAttr Tables.aliases Labelled.alias layers i isLocal fallback

/-- nxt_layer.py:758-770 `get_color`. -/
def getColor (layers : List (Labelled K)) (i : Nat) (isLocal fallback : Bool) : Option Str :=
  metaAttr Tables.colors Labelled.color layers i isLocal fallback

/-- nxt_layer.py:786-801 `get_locked`. -/
def getLocked (layers : List (Labelled K)) (i : Nat) (isLocal fallback : Bool) : Bool :=
  (metaAttr Tables.locks Labelled.lock layers i isLocal fallback).getD false

/-- What the setters of overrides have in common: the table of the root is changed in place. -/
def setOver (f : Option (Tables K) → K → SetRes (Tables K)) (layers : List (Labelled K)) (i : Nat) :
    SetRes (List (Labelled K)) :=
  match layers[i]? with
  | none => .keyError
  | some l =>
    match rootParent layers i with
    | none => .noRoot
    | some r =>
      match layers[r]? with
      | none => .noRoot
      | some t =>
        match f (some t.tables) l.path with
        | .noRoot => .noRoot
        | .keyError => .keyError
        | .ok tables => .ok (layers.set r { t with tables := tables })

/-- nxt_layer.py:744-757 `set_alias_over`. -/
def setAlias (layers : List (Labelled K)) (i : Nat) (v : Option Str) : SetRes (List (Labelled K)) :=
  setOver (fun r fp => setAliasOver r fp v) layers i

/-- nxt_layer.py:773-785 `set_color_over`. -/
def setColor (layers : List (Labelled K)) (i : Nat) (v : Option Str) : SetRes (List (Labelled K)) :=
  setOver (fun r fp => setColorOver r fp v) layers i

/-- nxt_layer.py:806-818 `set_locked_over`. -/
def setLock (layers : List (Labelled K)) (i : Nat) (v : Option Bool) : SetRes (List (Labelled K)) :=
  setOver (fun r fp => setLockedOver r fp v) layers i

/-- stage.py:204-207 `get_layer`: the place of the first layer of that alias. -/
def findLayer (layers : List (Labelled K)) (a : Str) : Option Nat :=
  (List.range layers.length).find? (fun i => getAlias layers i false true = some a)

end Nxt.Labels
