import Verif.Model.Py
/-!
# Model of adding and removing layers of a stage: `remove_sublayer`, `new_sublayer`, `register_layer`,
`assign_layer_parents` (nxt/stage.py), `add_reference` (nxt/nxt_layer.py)

Layer objects are numbers; a stage is the list `_sub_layers` of its layers, the strongest first, with the data
of all layer objects.

Not modelled: reading the references of a new layer from files (stage.py:254-265, see `Verif.Model.Stage`) and
saving it.
-/
namespace Nxt.SubLayers

/-- An entry of `sub_layers`: the dict with the file path and, once known, the layer object. -/
structure Ref where
  file : Str
  layer : Option Nat
deriving DecidableEq

/-- nxt_layer.py:111-130: what is used of a layer object. -/
structure Lay where
  file : Str
  real : Str
  paths : List Str
  refs : List Ref
  idx : Nat
  parent : Option Nat

structure Stg where
  stack : List Nat
  lay : Nat → Lay

/-- What a function returns: it has not ended yet, it raised, or it is done. -/
inductive Res (α : Type) where
  | running
  | raised
  | ok (a : α)

def Res.bind {α β : Type} : Res α → (α → Res β) → Res β
  | .running, _ => .running
  | .raised, _ => .raised
  | .ok a, f => f a

/-- An assignment to attributes of a layer object. -/
def upd (S : Stg) (k : Nat) (f : Lay → Lay) : Stg := { S with lay := fun j => if j = k then f (S.lay j) else S.lay j }

/-! ### Removing -/

/-- `for i, layer in enumerate(self._sub_layers): layer._layer_idx = i`, stage.py:270-271, 299-300. -/
def reindex (S : Stg) : Stg := S.stack.zipIdx.foldl (fun S p => upd S p.1 (fun l => { l with idx := p.2 })) S

/-- stage.py:278-284.  Python iterates over a list by index; here the list shrinks meanwhile. -/
def refLoop (rec : Stg → Nat → Res Stg) (k : Nat) : Nat → Nat → Stg → Res Stg
  | 0, _, _ => .running
  | fuel + 1, i, S =>
    match (S.lay k).refs[i]? with
    | none => .ok S
    | some r =>
      let S := upd S k (fun l => { l with refs := l.refs.erase r })
      match r.layer with
      | none => refLoop rec k fuel (i + 1) S
      | some j => (rec S j).bind (refLoop rec k fuel (i + 1))

/-- stage.py:292-296, the references of one layer with the file path of the layer which is removed; `none` is the
`KeyError` of `rd['layer']`. -/
def scrubRefs (k : Nat) : List Ref → List Ref → Option (List Ref)
  | [], refs => some refs
  | rd :: rm, refs =>
    match rd.layer with
    | none => none
    | some j => scrubRefs k rm (if j = k then refs.erase rd else refs)

/-- stage.py:285-296, one layer of the stage. -/
def scrubOne (file : Str) (k : Nat) (S : Stg) (j : Nat) : Res Stg :=
  if j = k then .ok S
  else
    match scrubRefs k ((S.lay j).refs.filter (fun d => d.file = file)) (S.lay j).refs with
    | none => .raised
    | some refs => .ok (upd S j (fun l => { l with paths := l.paths.erase file, refs := refs }))

/-- stage.py:285-296. -/
def scrub (file : Str) (k : Nat) : List Nat → Stg → Res Stg
  | [], S => .ok S
  | j :: js, S => (scrubOne file k S j).bind (scrub file k js)

/-- stage.py:297-300. -/
def dropLayer (S : Stg) (k : Nat) : Stg := reindex { S with stack := S.stack.erase k }

/-- stage.py:274-300 `remove_sublayer`. -/
def removeSub : Nat → Stg → Nat → Res Stg
  | 0, _, _ => .running
  | fuel + 1, S, k =>
    (refLoop (removeSub fuel) k (fuel + 1) 0 S).bind (fun S1 =>
      (scrub (S.lay k).file k S1.stack S1).bind (fun S2 => .ok (dropLayer S2 k)))

/-! ### Adding -/

/-- stage.py:2601-2605 `register_layer`: `list.insert` appends when the index is too large. -/
def register (S : Stg) (k idx : Nat) : Stg :=
  upd { S with stack := S.stack.take idx ++ k :: S.stack.drop idx } k (fun l => { l with idx := idx })

/-- stage.py:224-229, 246-250, 3560-3563: the first reference with the file path gets the layer. -/
def assignRef (file : Str) (k : Nat) : List Ref → Option (List Ref)
  | [] => none
  | r :: rs => if r.file = file then some ({ r with layer := some k } :: rs) else (assignRef file k rs).map (r :: ·)

/-- stage.py:220-231, the parent layer of the new one. -/
def refParent (file : Str) (k : Nat) (p : Lay) : Lay :=
  { p with
    paths := if file ∈ p.paths then p.paths else file :: p.paths
    refs := (assignRef file k p.refs).getD (⟨file, some k⟩ :: p.refs) }

/-- `a[:n - 1]` for `n : Nat`, stage.py:236: with `n = 0` all but the last. -/
def upTo (l : List Nat) (n : Nat) : List Nat := if n = 0 then l.dropLast else l.take (n - 1)

/-- stage.py:233-253, one lower layer of a new layer without parent. -/
def adopt (k idx : Nat) (S : Stg) (j : Nat) : Stg :=
  let low := S.lay j
  if (upTo S.stack idx).any (fun h => low.file ∈ (S.lay h).paths) then S
  else
    let S := upd S k (fun l => { l with paths := if low.file ∈ l.paths then l.paths else l.paths ++ [low.file] })
    match assignRef low.file j (S.lay k).refs with
    | some refs => upd S k (fun l => { l with refs := refs })
    | none =>
      let S := upd S j (fun l => { l with parent := some k })
      upd S k (fun l => { l with refs := l.refs ++ [⟨low.real, some j⟩] })

/-- stage.py:209-272 `new_sublayer`, for layer data without references: `k` is the new layer object. -/
def newSub (S : Stg) (k idx : Nat) : Stg :=
  let S := register S k idx
  match (S.lay k).parent with
  | some p => reindex (upd S p (refParent (S.lay k).file k))
  | none => reindex ((S.stack.drop (idx + 1)).foldl (adopt k idx) S)

/-! ### Assigning -/

/-- stage.py:3549-3563 `assign_layer_parents`. -/
def assignParents (S : Stg) (ks : List Nat) : Stg :=
  ks.foldl (fun S k =>
    match (S.lay k).parent with
    | none => S
    | some p => upd S p (fun l => { l with refs := (assignRef (S.lay k).file k l.refs).getD l.refs })) S

/-- nxt_layer.py:664-690 `add_reference` with a layer path; `none` for the index means the end. -/
def addReference (l : Lay) (file : Str) (layer : Option Nat) (idx : Option Nat) : Lay :=
  let i := idx.getD l.paths.length
  { l with paths := l.paths.take i ++ file :: l.paths.drop i, refs := l.refs.take i ++ ⟨file, layer⟩ :: l.refs.drop i }

end Nxt.SubLayers
