import Verif.Model.Edit
import Verif.Spec.Path
/-!
# Specification of a consistent layer and of what edits do to the tree of paths
-/
namespace Nxt.Spec
open Dict Edit

/-- The node object carries the name and the parent path its path tells. -/
def Placed (p : Str) (n : NodeObj) : Prop :=
  (p = ['/'] ∧ n.parent = [] ∧ n.name = ['/']) ∨
    ∃ ns x, Names (ns ++ [x]) ∧ p = render (ns ++ [x]) ∧ n.parent = render ns ∧ n.name = x

/-- The two dicts are inverse to each other, and every node is where it says. -/
structure Linked (st : St) : Prop where
  okPath : Ok st.byPath
  okNode : Ok st.byNode
  inv : ∀ p i, get? p st.byPath = some i ↔ get? i st.byNode = some p
  placed : ∀ p i, get? p st.byPath = some i → Placed p (st.obj i)

/-- The namespace of a path in the node table; the world has the namespace `['']`. -/
def TableEntry (st : St) (ns : List Str) (i : Nat) : Prop :=
  (ns = [[]] ∧ get? i st.byNode = some ['/']) ∨
    (ns ≠ [] ∧ Names ns ∧ get? i st.byNode = some (render ns))

/-- The node table lists every node exactly once, with its namespace. -/
structure TablesOk (st : St) : Prop extends Linked st where
  tableNodup : (st.table.map Prod.snd).Nodup
  table : ∀ ns i, (ns, i) ∈ st.table ↔ TableEntry st ns i

/-- The tables of a layer which can be saved are consistent, and so is the list of its nodes. -/
structure LayerOk (st : St) : Prop extends TablesOk st where
  specsNodup : st.specs.Nodup
  specs : ∀ i, i ∈ st.specs ↔ i ∈ keys st.byNode

/-- Where a path goes when the node `old` is moved to `new`. -/
def relocate (old new ns : List Str) : List Str := if old <+: ns then new ++ ns.drop old.length else ns

/-- Nothing is at the path or below it. -/
def Unused (st : St) (ns : List Str) : Prop := ∀ rest, render (ns ++ rest) ∉ keys st.byPath

/-- The nodes of `st'` are those of `st`, with `old` and all below it moved to `new`. -/
def Moved (old new : List Str) (st st' : St) : Prop :=
  ∀ ms j, Names ms → (get? (render ms) st'.byPath = some j ↔
    ∃ ls, Names ls ∧ get? (render ls) st.byPath = some j ∧ ms = relocate old new ls)

/-- The nodes, each with its new name, go below `par` one after the other, with all below them. -/
inductive MovedSeq (par : List Str) : List (Nat × Str) → St → St → Prop
  | nil {st st' : St} : (∀ p, get? p st'.byPath = get? p st.byPath) → MovedSeq par [] st st'
  | cons {i x old rest} {st st1 st' : St} : Names old → get? (render old) st.byPath = some i →
      Linked st1 → Moved old (par ++ [x]) st st1 → MovedSeq par rest st1 st' → MovedSeq par ((i, x) :: rest) st st'

/-- The nodes may go below `par` under these names: they are other nodes than the world, `par` is
not one of them nor below one, and the new paths are free and different. -/
structure CanMove (st : St) (nodes : List (Nat × Str)) (par : List Str) : Prop where
  parNames : Names par
  names : ∀ e ∈ nodes, IsName e.2
  nodup : (nodes.map Prod.fst).Nodup
  namesNodup : (nodes.map Prod.snd).Nodup
  unused : ∀ e ∈ nodes, Unused st (par ++ [e.2])
  here : ∀ e ∈ nodes, ∃ old, Names old ∧ old ≠ [] ∧ get? (render old) st.byPath = some e.1 ∧ ¬ old <+: par

open Classical in
/-- Where a path goes when the node `old` is renamed to `new`: with the node go those children which
are nodes, and all below them. -/
noncomputable def renameTo (st : St) (old new ls : List Str) : List Str :=
  if ls = old ∨ ∃ y r, ls = old ++ y :: r ∧ render (old ++ [y]) ∈ keys st.byPath
  then new ++ ls.drop old.length else ls

/-- The nodes of `st'` are those of `st` after a change of name. -/
def Renamed (old new : List Str) (st st' : St) : Prop :=
  ∀ ms j, Names ms → (get? (render ms) st'.byPath = some j ↔
    ∃ ls, Names ls ∧ get? (render ls) st.byPath = some j ∧ ms = renameTo st old new ls)

/-- The edits of a layer which can be saved. -/
inductive Op where
  | add (i : Nat) (par : List Str) (name : Str) (order : List Str)
  | delete (i : Nat) (withDesc rmData : Bool) (fuel : Nat)
  | parent (nodes : List (Nat × Str)) (par : List Str)
  | rename (i : Nat) (name : Str)

/-- Running one edit; the descendants to delete are asked from the layer. -/
def runOp (st : St) : Op → Res
  | .add i par name order => .ok (addNode st i (render par) name order)
  | .delete i withDesc rmData fuel =>
    match get? i st.byNode with
    | none => .raised st
    | some p =>
      match Tree.descendants (tree st) (Tree.scan (fun a b => a == b) (tree st)) true fuel p with
      | none => .raised st
      | some desc => deleteNode desc withDesc rmData st i
  | .parent nodes par => parentNodes st nodes (render par)
  | .rename i name => setNodeName st i name

/-- Every path between `old` and a node below it is a node. -/
def NoGaps (st : St) (old : List Str) : Prop :=
  ∀ a b, Names (old ++ a ++ b) → render (old ++ a ++ b) ∈ keys st.byPath → render (old ++ a) ∈ keys st.byPath

/-- When the edit is in order: new paths are free, and nothing is missing below what is deleted. -/
def EditAllowed (st : St) : Op → Prop
  | .add i par name _ => Names (par ++ [name]) ∧ render (par ++ [name]) ∉ keys st.byPath ∧ i ∉ keys st.byNode
  | .delete i withDesc _ fuel => ∃ old, Names old ∧ old ≠ [] ∧ get? (render old) st.byPath = some i ∧
      (withDesc = true → NoGaps st old) ∧
      (Tree.descendants (tree st) (Tree.scan (fun a b => a == b) (tree st)) true fuel (render old)).isSome
  | .parent nodes par => CanMove st nodes par
  | .rename i name => ∃ par x, Names (par ++ [x]) ∧ get? (render (par ++ [x])) st.byPath = some i ∧
      IsName name ∧ Unused st (par ++ [name])

/-- Running edits one after the other, up to the first exception. -/
def runOps : List Op → St → Res
  | [], st => .ok st
  | op :: ops, st =>
    match runOp st op with
    | .ok st' => runOps ops st'
    | r => r

/-- Each edit is in order when its turn comes. -/
def AllAllowed : List Op → St → Prop
  | [], _ => True
  | op :: ops, st => EditAllowed st op ∧ ∀ st', runOp st op = .ok st' → AllAllowed ops st'

/-- Edits of a composite layer. -/
inductive CompOp where
  | add (path : Str) (i : Nat) (addOrder : Bool)
  | remove (path : Str) (i : Nat) (rmOrder rmData : Bool)

/-- Running edits of a composite layer; `none` is an exception. -/
def runComp : List CompOp → St → Option St
  | [], st => some st
  | .add p i o :: ops, st => runComp ops (addComp st p i o)
  | .remove p i o d :: ops, st => (removeComp st p i o d).bind (runComp ops)

/-- Nodes are added at free paths and removed from where they are. -/
def CompAllowed : List CompOp → St → Prop
  | [], _ => True
  | .add p i o :: ops, st => Placed p (st.obj i) ∧ p ∉ keys st.byPath ∧ i ∉ keys st.byNode ∧ CompAllowed ops (addComp st p i o)
  | .remove p i o d :: ops, st => get? p st.byPath = some i ∧ ∀ st', removeComp st p i o d = some st' → CompAllowed ops st'

end Nxt.Spec
