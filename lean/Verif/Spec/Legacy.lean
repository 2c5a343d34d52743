import Verif.Model.Legacy
import Verif.Spec.Path
/-!
# Specification vocabulary for converted data
-/
namespace Nxt.Spec
open Dict Legacy

/-- One step into a JSON value. -/
inductive Step where
  | key (k : Str)
  | idx (i : Nat)

/-- The value one step below. -/
def stepVal : Step → Val → Option Val
  | .key k, .dict d => get? k d
  | .idx i, .list l => l[i]?
  | _, _ => none

/-- The value at the end of a chain of keys and indexes. -/
def atPath : List Step → Val → Option Val
  | [], v => some v
  | s :: ss, v => (stepVal s v).bind (atPath ss)

/-- What can be seen of a value without looking into it: the value itself when it is not a container,
the length of a list, that it is a dict. -/
def shape : Val → Val
  | .list l => .list (l.map (fun _ => .none))
  | .dict _ => .dict []
  | v => v

mutual
/-- Keys are distinct at every level. -/
def wf : Val → Prop
  | .dict d => Ok d ∧ wfPairs d
  | .list l => wfList l
  | _ => True
/-- The values of a dict. -/
def wfPairs : List (Str × Val) → Prop
  | [] => True
  | (_, v) :: r => wf v ∧ wfPairs r
/-- The items of a list. -/
def wfList : List Val → Prop
  | [] => True
  | v :: r => wf v ∧ wfList r
end

/-- Same JSON value up to the order of keys. -/
def SameJson (v w : Val) : Prop := ∀ path, (atPath path v).map shape = (atPath path w).map shape

/-- Name and children of a pre-release node. -/
def lname : LNode → Str
  | .mk n _ _ _ _ _ _ _ _ _ => n
def lchildren : LNode → List LNode
  | .mk _ _ _ _ _ _ _ _ _ cs => cs

/-- `At roots ns n`: following the names `ns` from the roots of a pre-release file leads to `n`. -/
inductive At : List LNode → List Str → LNode → Prop
  | here {l : List LNode} {n : LNode} : n ∈ l → At l [lname n] n
  | under {l : List LNode} {n m : LNode} {ns : List Str} :
      n ∈ l → At (lchildren n) ns m → At l (lname n :: ns) m

/-- Sibling names are distinct and without `/`, at every level. -/
inductive GoodTree : List LNode → Prop
  | mk {l : List LNode} : (l.map lname).Nodup → (∀ n ∈ l, '/' ∉ lname n) → (∀ n ∈ l, GoodTree (lchildren n)) →
      GoodTree l

/-- Not Python's `None`. -/
def notNone : Val → Bool
  | .none => false
  | _ => true

/-- The last value other than `None` given by the references with path `p`. -/
def lastGiven (f : RefIn → Val) (p : Str) (refs : List RefIn) : Option Val :=
  ((refs.filter (fun r => r.path = p)).map f |>.filter notNone).getLast?

end Nxt.Spec

namespace Nxt.Spec
open Dict Legacy

/-- Both missing, or the same JSON value. -/
def SameOpt (a b : Option Val) : Prop :=
  ∀ path, (a.bind (atPath path)).map shape = (b.bind (atPath path)).map shape

/-- A dict whose values are dicts. -/
def DictOfDicts : Val → Prop
  | .dict d => ∀ k v, get? k d = some v → ∃ e, v = .dict e
  | _ => False

/-- The entries a 1.15 node may have. -/
def nodeEntries115 : List Str :=
  ["attrs", "child_order", "code", "comment", "enabled", "execute_in", "instance",
   "start_point"].map String.toList

/-- The tables in the meta data of a 1.15 file. -/
def metaTables115 : List Str := ["positions", "collapse", "aliases", "colors"].map String.toList

/-- The shape of a 1.15 file the converter relies on. -/
structure Shape115 (data : Dict Str Val) : Prop where
  wf : wf (.dict data)
  nodes : ∀ v, get? "nodes".toList data = some v → ∃ d, v = .dict d ∧
    ∀ p n, get? p d = some n → ∃ nd, n = .dict nd ∧ ∀ a, get? "attrs".toList nd = some a → DictOfDicts a
  metaData : ∀ v, get? "meta_data".toList data = some v → ∃ d, v = .dict d ∧
    ∀ k ∈ metaTables115, ∀ t, get? k d = some t → ∃ e, t = .dict e
  overs : ∀ v, get? "comp_overrides".toList data = some v → ∃ d, v = .dict d

end Nxt.Spec
