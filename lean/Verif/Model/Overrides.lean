import Verif.Model.Layer
/-!
# Model of the mute and solo overrides of a whole stage
(`nxt/nxt_layer.py`)

`comp_overrides` of a layer maps the file path of a layer to a small dict holding `mute` and `solo`.  The setters
copy the outer dict only: the small dicts are shared between layers, and they are changed in place.  They are
therefore kept in a heap here, and the tables of the layers hold their places in it.
-/
namespace Nxt.Overrides
open Dict Layer

/-- nxt_layer.py:110-130: what a layer holds; `parent` is the place of the parent layer in the list of layers and
`overs` gives the place of the small dict in the heap. -/
structure ORec (K : Type) where
  path : K
  parent : Option Nat
  mute : Bool
  solo : Bool
  overs : Dict K Nat

/-- The layers of a stage together with the small dicts of their override tables. -/
structure OStage (K : Type) where
  layers : List (ORec K)
  heap : List Over

/-- nxt_layer.py:1149-1152 the walk over `parent_layer`: the layers met, at most `fuel` of them. -/
def ups {K : Type} (layers : List (ORec K)) : Nat → Nat → List Nat
  | 0, _ => []
  | fuel + 1, i =>
    match layers[i]? with
    | none => []
    | some l =>
      match l.parent with
      | none => [i]
      | some p => i :: ups layers fuel p

/-- The override table of a layer. -/
def tableAt {K : Type} (layers : List (ORec K)) (i : Nat) : Dict K Nat :=
  match layers[i]? with
  | none => []
  | some l => l.overs

variable {K : Type} [DecidableEq K]

/-- nxt_layer.py:1146-1153 `get_comped_layer_overs`: a new outer dict with the old small dicts. -/
def comped (s : OStage K) (i : Nat) : Dict K Nat :=
  compedOvers ((ups s.layers s.layers.length i).map (tableAt s.layers))

/-- nxt_layer.py:631-632 and 649-650: `ref_data.get(self.filepath, {})`. -/
def overFor (s : OStage K) (i : Nat) (fp : K) : Over :=
  match get? fp (comped s i) with
  | none => {}
  | some c => (s.heap[c]?).getD {}

/-- nxt_layer.py:628-634 `get_muted`. -/
def isMuted (s : OStage K) (i : Nat) : Bool :=
  match s.layers[i]? with
  | none => false
  | some l => (overFor s i l.path).mute.getD l.mute

/-- nxt_layer.py:646-652 `get_soloed`. -/
def isSoloed (s : OStage K) (i : Nat) : Bool :=
  match s.layers[i]? with
  | none => false
  | some l => (overFor s i l.path).solo.getD l.solo

/-- nxt_layer.py:640-644 and 658-662: the small dict of the comped table is changed in place, or a new one made, and
the comped table becomes the table of the layer. -/
def setOver (s : OStage K) (i : Nat) (fp : K) (f : Over → Over) : OStage K :=
  let ref := comped s i
  match get? fp ref with
  | some c =>
    { layers := s.layers.modify i (fun l => { l with overs := Dict.set fp c ref })
      heap := s.heap.modify c f }
  | none =>
    { layers := s.layers.modify i (fun l => { l with overs := Dict.set fp s.heap.length ref })
      heap := s.heap ++ [f {}] }

/-- nxt_layer.py:639-644 `set_mute_over`. -/
def muteOver (s : OStage K) (i : Nat) (fp : K) (state : Bool) : OStage K :=
  setOver s i fp (fun o => { o with mute := some state })

/-- nxt_layer.py:657-662 `set_solo_over`. -/
def soloOver (s : OStage K) (i : Nat) (fp : K) (state : Bool) : OStage K :=
  setOver s i fp (fun o => { o with solo := some state })

/-- nxt_layer.py:1071-1090 `get_active_layers` for some of the layers of the stage. -/
def actives (s : OStage K) (ls : List Nat) : List Nat := activeLayers (isMuted s) (isSoloed s) ls

/-- nxt_layer.py:1104-1112 `get_muted_layers`. -/
def mutedOnes (s : OStage K) (ls : List Nat) : List Nat := ls.filter (isMuted s)

/-- nxt_layer.py:867-869 `get_comp_overrides`: what is written into the file of a layer.  The keys are sorted there,
which does not matter for a dict. -/
def written (s : OStage K) (l : ORec K) : Dict K Over :=
  l.overs.map (fun kc => (kc.1, (s.heap[kc.2]?).getD {}))

/-- nxt_layer.py:122: the table read from a file has its own small dicts; they are put behind those of the heap. -/
def placed (start : Nat) (t : Dict K Over) : Dict K Nat :=
  t.zipIdx start |>.map (fun e => (e.1.1, e.2))

/-- nxt_layer.py:110-130 for one layer after the other: path, parent and the table in the file.  The own states
start as false, whatever the file says. -/
def loaded : List (K × Option Nat × Dict K Over) → List Over → List (ORec K) → OStage K
  | [], heap, ls => { layers := ls, heap := heap }
  | (fp, par, t) :: rest, heap, ls =>
    loaded rest (heap ++ t.map Prod.snd)
      (ls ++ [{ path := fp, parent := par, mute := false, solo := false, overs := placed heap.length t }])

/-- Saving every layer (nxt_layer.py:871-890) and opening the stage again. -/
def reopened (s : OStage K) : OStage K :=
  loaded (s.layers.map (fun l => (l.path, l.parent, written s l))) [] []

end Nxt.Overrides
