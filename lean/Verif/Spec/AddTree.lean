import Verif.Model.AddTree
import Verif.Spec.Duplicate
/-!
# Specification vocabulary for trees of node data
-/
namespace Nxt.Spec
open Dict NodeData AddTree

/-- The name node data asks for. -/
def treeName : NodeTree → Str
  | .node name _ _ => name.getD "node".toList

mutual

/-- The nodes a tree stands for below `qs`, each before those below it: the namespace, the data, the names of the
children. -/
def treeRows (qs : List Str) : NodeTree → List (List Str × Dict Str Val × List Str)
  | .node name data children =>
    (qs ++ [name.getD "node".toList], data, children.map treeName) :: treesRows (qs ++ [name.getD "node".toList]) children

/-- The nodes of several trees. -/
def treesRows (qs : List Str) : List NodeTree → List (List Str × Dict Str Val × List Str)
  | [] => []
  | t :: ts => treeRows qs t ++ treesRows qs ts

end

/-- A name which can be kept: a proper name, which the naming rules leave as it is if they are used.  It may only be
missing when names are made. -/
def NameKept (cc : Names.CharClass) (fix : Bool) : Option Str → Prop
  | none => fix = true
  | some x => IsName x ∧ (fix = true → KeptName cc x)

mutual

/-- Names which can be kept, and no two children with one name. -/
def TreeNamed (cc : Names.CharClass) (fix : Bool) : NodeTree → Prop
  | .node name _ children =>
    NameKept cc fix name ∧ TreesNamed cc fix children

/-- The same for children. -/
def TreesNamed (cc : Names.CharClass) (fix : Bool) : List NodeTree → Prop
  | [] => True
  | t :: ts => TreeNamed cc fix t ∧ treeName t ∉ ts.map treeName ∧ TreesNamed cc fix ts

end

mutual

/-- The same tree with other names. -/
def LikeTree : NodeTree → NodeTree → Prop
  | .node _ d ks, .node x d' ks' => x ≠ none ∧ d' = d ∧ LikeTrees ks ks'

/-- The same for children. -/
def LikeTrees : List NodeTree → List NodeTree → Prop
  | [], ks' => ks' = []
  | t :: ts, ks' => ∃ t' ts', ks' = t' :: ts' ∧ LikeTree t t' ∧ LikeTrees ts ts'

end

mutual

/-- Every node of a tree has a name. -/
def AllGiven : NodeTree → Prop
  | .node name _ children => name ≠ none ∧ EachGiven children

/-- The same for children. -/
def EachGiven : List NodeTree → Prop
  | [] => True
  | t :: ts => AllGiven t ∧ EachGiven ts

end

/-- One node is another to which children have been added: its child order lists the new ones behind the old ones. -/
def WithChildren (names : List Str) (n n' : Dict Str Val) : Prop :=
  (∀ a, a ≠ "_child_order".toList → get? a n' = get? a n) ∧
  ∀ o : List Str, getAttr n "_child_order".toList = .list (o.map Val.str) →
    getAttr n' "_child_order".toList = .list ((o ++ names.filter (fun x => x ∉ o)).map Val.str)

end Nxt.Spec
