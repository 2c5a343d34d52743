import Verif.Model.NodeData
import Verif.Model.Names
import Verif.Spec.Files
import Verif.Spec.Inherit
import Verif.Spec.Path
/-!
# Specification vocabulary for copies of nodes and for hierarchies of nodes
-/
namespace Nxt.Spec
open Dict NodeData

/-- The nodes of a layer as loading and editing leave them: every node is at the path of its name and
parent, `order` gives the child orders, which list the children, and only the world may be missing above a
node. -/
structure Filed (T : Dict Str (Dict Str Val)) (order : List Str → List Str) : Prop where
  ok : Ok T
  path : ∀ p ∈ keys T, ∃ ns, Names ns ∧ p = render ns
  node : ∀ ns n, Names ns → get? (render ns) T = some n → Ok n ∧
    getAttr n "_name".toList = .str (ns.getLast?.getD ['/']) ∧
    getAttr n "_parent_path".toList = .str (parentText ns) ∧
    getAttr n "_child_order".toList = .list ((order ns).map Val.str) ∧ (order ns).Nodup
  listed : ∀ ns m, ns ≠ [] → Names (ns ++ [m]) → render (ns ++ [m]) ∈ keys T → m ∈ order ns
  whole : ∀ ns m, ns ≠ [] → Names (ns ++ [m]) → render (ns ++ [m]) ∈ keys T → render ns ∈ keys T

/-- One node has what another has, except for its name, its place, its sources, and the values which are
not written to files. -/
structure CopyOf (b : List Str) (n n' : Dict Str Val) : Prop where
  attrs : ∀ k, UserName b k → (k ∈ keys n' ↔ k ∈ keys n)
  value : ∀ k v, UserName b k → get? k n = some v → v.truthy = true → v.serialisable = true → get? k n' = some v
  comment : ∀ k v, UserName b k → k ∈ keys n → getAttr n (k ++ "_comment__nxt".toList) = v → v.truthy = true →
    getAttr n' (k ++ "_comment__nxt".toList) = v
  type : ∀ k v, UserName b k → k ∈ keys n → getAttr n (k ++ "_type__nxt".toList) = v → v.truthy = true →
    getAttr n' (k ++ "_type__nxt".toList) = v
  internal : ∀ a ∈ opinionAttrs, (getAttr n a).hasOpinion = true → getAttr n' a = getAttr n a
  silent : ∀ a ∈ opinionAttrs, (getAttr n a).hasOpinion = false → (getAttr n' a).hasOpinion = false
  order : getAttr n' "_child_order".toList = getAttr n "_child_order".toList

/-- A name the naming rules leave as it is. -/
def KeptName (cc : Names.CharClass) (x : Str) : Prop :=
  (∃ c cs, x = c :: cs ∧ cc.isDigit c = false) ∧ (∀ c ∈ x, cc.isWord c = true) ∧ x ≠ "__name__".toList

/-- The layer `T1` is `T` with copies of some of the nodes from `src` on placed from `dst` on; the child
orders of old nodes may differ. -/
def Grown (b : List Str) (T T1 : Dict Str (Dict Str Val)) (src dst : List Str) : Prop :=
  (∀ p ∈ keys T1, ∃ ns, Names ns ∧ p = render ns) ∧
  ∀ ns n1, Names ns → get? (render ns) T1 = some n1 →
    (∃ n, get? (render ns) T = some n ∧ ∀ a, a ≠ "_child_order".toList → get? a n1 = get? a n) ∨
    (∃ rest n, ns = dst ++ rest ∧ get? (render (src ++ rest)) T = some n ∧ CopyOf b n n1)

/-- The paths of a namespace from the top down, below those of `seen`. -/
def pathsDown : List Str → List Str → List Str
  | _, [] => []
  | seen, x :: xs => render (seen ++ [x]) :: pathsDown (seen ++ [x]) xs

/-- A node with nothing but its name and place. -/
structure Blank (b : List Str) (n : Dict Str Val) (name : Str) (parent : List Str) : Prop where
  name : getAttr n "_name".toList = .str name
  parent : getAttr n "_parent_path".toList = .str (render parent)
  user : ∀ k, UserName b k → k ∉ keys n
  silent : ∀ a ∈ opinionAttrs, (getAttr n a).hasOpinion = false

/-- Child orders are lists of names without repetition. -/
def OrdersOk (T : Dict Str (Dict Str Val)) : Prop :=
  ∀ p n, get? p T = some n → ∃ o : List Str, getAttr n "_child_order".toList = .list (o.map Val.str) ∧ o.Nodup

end Nxt.Spec
