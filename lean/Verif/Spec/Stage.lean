import Verif.Model.Stage
/-!
# Specifications for loading layers
-/
namespace Nxt.Spec
open Stage

/-- The reference leads to no layer: the file is unreadable or empty. -/
def Skipped (o : Loaded) : Prop := o = .ioError ∨ o = .empty

/-- The references a layer is left with. -/
def goodRefs (read : Str → Str → Loaded) (dirname : Str → Str) (d : FileData) : List Str :=
  d.refs.filter (fun r => decide (r ≠ [] ∧ read (dirname d.real) r ≠ .ioError))

/-- The layer of a file. -/
def layerOf (read : Str → Str → Loaded) (dirname : Str → Str) (d : FileData) (parent : Option Nat) :
    LRec :=
  { file := d.file, real := d.real, parent := parent, subPaths := goodRefs read dirname d,
    subs := (goodRefs read dirname d).map (fun r => (r, none)) }

mutual
/-- `Layers p n d ls`: `ls` are the layers of the file `d` in depth first order, the first with the
number `n` and the parent `p`. -/
inductive Layers (read : Str → Str → Loaded) (dirname : Str → Str) :
    Option Nat → Nat → FileData → List LRec → Prop
  | file {p n d ls} : RefLayers read dirname n (n + 1) (dirname d.real) d.refs ls →
      Layers read dirname p n d (layerOf read dirname d p :: ls)
/-- The layers of the references, read from the directory of the referring file. -/
inductive RefLayers (read : Str → Str → Loaded) (dirname : Str → Str) :
    Nat → Nat → Str → List Str → List LRec → Prop
  | nil {p n dir} : RefLayers read dirname p n dir [] []
  | skip {p n dir r rs ls} : Skipped (read dir r) → RefLayers read dirname p n dir rs ls →
      RefLayers read dirname p n dir (r :: rs) ls
  | load {p n dir r rs d ls ls'} : read dir r = .data d → Layers read dirname (some p) n d ls →
      RefLayers read dirname p (n + ls.length) dir rs ls' →
      RefLayers read dirname p n dir (r :: rs) (ls ++ ls')
end

/-- The first file references the second. -/
def Refers (read : Str → Str → Loaded) (dirname : Str → Str) (d e : FileData) : Prop :=
  ∃ r ∈ d.refs, read (dirname d.real) r = .data e

/-- `RefersStar d e`: `e` is loaded somewhere below `d` (or is `d`). -/
inductive RefersStar (read : Str → Str → Loaded) (dirname : Str → Str) : FileData → FileData → Prop
  | refl {d} : RefersStar read dirname d d
  | step {d e f} : Refers read dirname d e → RefersStar read dirname e f → RefersStar read dirname d f

/-- `LayerAbove layers i j`: `j` is `i`, its parent, the parent of that, … -/
inductive LayerAbove (layers : List LRec) : Nat → Nat → Prop
  | self {i} : LayerAbove layers i i
  | up {i j k : Nat} {l : LRec} : layers[i]? = some l → l.parent = some j → LayerAbove layers j k → LayerAbove layers i k

/-- Every parent comes before its children. -/
def ParentsFirst (layers : List LRec) : Prop :=
  ∀ (i : Nat) (l : LRec) (j : Nat), layers[i]? = some l → l.parent = some j → j < i

end Nxt.Spec
