import Verif.Spec.Convert
/-!
# Specification: pre-release files
-/
namespace Nxt.Spec
open Dict Legacy

/-- What a dict has at a key, `None` if nothing. -/
def heldOr (k : String) (d : Dict Str Val) : Val :=
  match get? k.toList d with
  | some v => v
  | none => .none

mutual
/-- A value of a pre-release file stands for a node: it has a name and data, its children stand for the children. -/
inductive Says : Val → LNode → Prop
  | mk {d e : Dict Str Val} {name : Str} {kids : List Val} {cs : List LNode} :
      get? "name".toList d = some (.str name) → get? "data".toList d = some (.dict e) →
      (get? "children".toList d = some (.list kids) ∨ get? "children".toList d = none ∧ kids = []) → SaysAll kids cs →
      Says (.dict d) (.mk name (heldOr "widget_type" e) (heldOr "execute_in" d) (heldOr "instance" e) (heldOr "enabled" e)
        (heldOr "compute" e) (heldOr "comment" d) (heldOr "attributes" e) (heldOr "execute_order" d) cs)
/-- The values of a list stand for the nodes of a list. -/
inductive SaysAll : List Val → List LNode → Prop
  | nil : SaysAll [] []
  | cons {v : Val} {n : LNode} {l : List Val} {ns : List LNode} : Says v n → SaysAll l ns → SaysAll (v :: l) (n :: ns)
end

/-- Python's `None`, `[]` or `{}`. -/
def nothing? : Val → Bool
  | .none => true
  | .list l => l.isEmpty
  | .dict d => d.isEmpty
  | _ => false

/-- What the node at a path says under the key of a released file. -/
def preSaid (starts : List Str) (path : Str) : LNode → Str → Option Val
  | .mk _ widget execIn inst enabled compute comment attrs execOrder _, k =>
    let told (v : Val) := if nothing? v then none else some v
    if k = "widget_type".toList then told widget
    else if k = "execute_in".toList then told execIn
    else if k = "instance".toList then told inst
    else if k = "enabled".toList then (if notNone enabled then some enabled else none)
    else if k = "code".toList then told compute
    else if k = "comment".toList then told comment
    else if k = "attrs".toList then told attrs
    else if k = "child_order".toList then told execOrder
    else if k = "start_point".toList then (if path ∈ starts then some (.bool true) else none)
    else none

/-- The node is left out: its parent says something, but does not list it. -/
def Unlisted (starts : List Str) (roots : List LNode) (names : List Str) : Prop :=
  ∃ ms a parent, names = ms ++ [a] ∧ At roots ms parent ∧ (∃ k, preSaid starts (slashed ms) parent k ≠ none) ∧
    ∀ l, preSaid starts (slashed ms) parent "child_order".toList = some (.list l) → Val.str a ∉ l

/-- The start nodes of a pre-release file. -/
def startsIn (d : Dict Str Val) (starts : List Str) : Prop :=
  ∃ m, get? "data".toList d = some (.dict m) ∧
    ((get? "start_nodes".toList m = none ∧ starts = []) ∨ get? "start_nodes".toList m = some (.list (starts.map Val.str)))

/-- The shape of a pre-release file the converters rely on. -/
structure PreShape (d : Dict Str Val) (roots : List LNode) (starts : List Str) : Prop where
  wf : wf (.dict d)
  children : ∃ l, get? "children".toList d = some (.list l) ∧ SaysAll l roots
  good : GoodTree roots
  starting : startsIn d starts
  noNodes : get? "nodes".toList d = none
  attrs : ∀ ns n v, At roots ns n → preSaid starts (slashed ns) n "attrs".toList = some v → DictOfDicts v
  tables : ∀ m, get? "data".toList d = some (.dict m) → ∀ k ∈ metaTables109, ∀ t, get? k m = some t → ∃ e, t = .dict e
  overs : ∀ v, get? "comp_overrides".toList d = some v → DictOfDicts v
  refs : ∀ v, get? "references".toList d = some v → ∃ l, v = .list l ∧
    ∀ r ∈ l, ∃ e, r = .dict e ∧ ∀ p, get? "path".toList e = some p → p = .none ∨ ∃ s, p = .str s

/-- `x` is the pre-release file `d` as version 1.0. -/
structure PreFile (d : Dict Str Val) (roots : List LNode) (starts : List Str) (x : Dict Str Val) : Prop where
  version : get? "version".toList x = some (.str "1.0.0".toList)
  entries : ∀ k, k ∉ ["version", "children", "data", "meta_data", "nodes"].map String.toList → SameOpt (get? k x) (get? k d)
  gone : get? "children".toList x = none ∧ get? "data".toList x = none
  metaData : SameOpt (get? "meta_data".toList x) (get? "data".toList d)
  nodes : roots ≠ [] → ∃ ns, get? "nodes".toList x = some (.dict ns) ∧
    (∀ names n, At roots names n → ¬ Unlisted starts roots names → ∃ nd, get? (slashed names) ns = some (.dict nd) ∧
      ∀ k, SameOpt (get? k nd) (preSaid starts (slashed names) n k)) ∧
    ∀ p, get? p ns ≠ none → ∃ names n, At roots names n ∧ p = slashed names ∧ ¬ Unlisted starts roots names
  noNodes : roots = [] → get? "nodes".toList x = none

mutual
/-- Children of a pre-release file which cannot be read: something one cannot go through, a text with characters in it, or a
list with a node in it which cannot be read. -/
inductive BrokenKids : Val → Prop
  | none : BrokenKids .none
  | bool (b : Bool) : BrokenKids (.bool b)
  | num (n : Int) : BrokenKids (.num n)
  | text (c : Char) (s : Str) : BrokenKids (.str (c :: s))
  | item (before after : List Val) (v : Val) : BrokenNode v → BrokenKids (.list (before ++ v :: after))
/-- A node which cannot be read: no dict, or one without `name` or `data`, or with such children. -/
inductive BrokenNode : Val → Prop
  | notDict (v : Val) : (∀ d, v ≠ .dict d) → BrokenNode v
  | noName (d : List (Str × Val)) : get? "name".toList d = none → BrokenNode (.dict d)
  | noData (d : List (Str × Val)) : get? "data".toList d = none → BrokenNode (.dict d)
  | kids (d : List (Str × Val)) (v : Val) : get? "children".toList d = some v → BrokenKids v → BrokenNode (.dict d)
end

end Nxt.Spec
