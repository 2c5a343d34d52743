import Verif.Model.Mro
import Verif.Spec.Comp
import Verif.Spec.Path
/-!
# Specification vocabulary for inheritance between composite nodes
-/
namespace Nxt.Spec
open Dict

/-- A namespace and those above it, the nearest first; given from last name to first. -/
def lineageRev : List Str → List (List Str)
  | [] => [[]]
  | n :: r => (n :: r).reverse :: lineageRev r

/-- The namespace itself, its parent, and so on up to the world. -/
def lineage (ns : List Str) : List (List Str) := lineageRev ns.reverse

/-- The first of several tables which has the key decides. -/
def firstTable (k : Str) (tables : List (Dict Str Val)) : Option Val := tables.findSome? (get? k)

/-- The first node of the lineage whose tables have the key decides. -/
def inherited (tables : Str → Option (List (Dict Str Val))) (ns : List Str) (k : Str) : Option Val :=
  (lineage ns).findSome? (fun q => (tables (render q)).bind (firstTable k))

/-- The node nearest above. -/
def nearestAbove (nodes : Dict Str Nat) : List Str → Option Nat
  | [] => none
  | n :: r => (lineage (n :: r).dropLast).findSome? (fun q => get? (render q) nodes)

/-- The parent path of a node as the layers hold it: empty for the world. -/
def parentText (ns : List Str) : Str := if ns = [] then [] else render ns.dropLast

/-- The classes of a composition: `Node` is class 0; every composite node `c` has its spec classes
`specs c`, strong to weak, in front of the composite nodes `links c` in its bases; every spec class
belongs to one node and has `Node` as its only base. -/
structure Laid (g : Mro.Classes) (nodes : Dict Str Nat) (specs links : Nat → List Nat) : Prop where
  ok : Dict.Ok nodes
  inj : ∀ p q c, (p, c) ∈ nodes → (q, c) ∈ nodes → p = q
  root : g.bases 0 = []
  pos : 0 < g.size
  comp : ∀ p c, (p, c) ∈ nodes → 0 < c ∧ c < g.size ∧ g.bases c = specs c ++ links c
  link : ∀ p c, (p, c) ∈ nodes → ∀ b ∈ links c, ∃ q, (q, b) ∈ nodes
  spec : ∀ p c, (p, c) ∈ nodes → ∀ s ∈ specs c, 0 < s ∧ s < g.size ∧ g.bases s = [0] ∧
    ∀ q, (q, s) ∉ nodes
  nonempty : ∀ p c, (p, c) ∈ nodes → specs c ≠ []
  nodup : ∀ p c, (p, c) ∈ nodes → (specs c).Nodup
  disjoint : ∀ p c q d, (p, c) ∈ nodes → (q, d) ∈ nodes → ∀ s, s ∈ specs c → s ∈ specs d → c = d
  others : ∀ s < g.size, s ≠ 0 → (∀ q, (q, s) ∉ nodes) → g.bases s = [0]

/-- The tables of a node: its own and those of its specs. -/
def tablesOf (g : Mro.Classes) (specs : Nat → List Nat) (c : Nat) : List (Dict Str Val) :=
  g.own c :: (specs c).map g.own

/-- The node a node is an instance of: the one at the instance path its tables give, other than the
world. -/
def instSource (g : Mro.Classes) (nodes : Dict Str Nat) (specs : Nat → List Nat) (c : Nat) : Option Nat :=
  match firstTable "_instance".toList (tablesOf g specs c) with
  | some (.str ip) => if ip = ['/'] then none else get? ip nodes
  | _ => none

/-- One node takes from another: the nearest node above it, or the one it is an instance of. -/
inductive TakesFrom (g : Mro.Classes) (nodes : Dict Str Nat) (specs : Nat → List Nat) : Nat → Nat → Prop
  | parent {ns : List Str} {c b : Nat} : Names ns → (render ns, c) ∈ nodes → nearestAbove nodes ns = some b →
      TakesFrom g nodes specs c b
  | instance {p : Str} {c b : Nat} : (p, c) ∈ nodes → instSource g nodes specs c = some b →
      TakesFrom g nodes specs c b

/-- One node takes from another over one or more steps. -/
inductive Draws (g : Mro.Classes) (nodes : Dict Str Nat) (specs : Nat → List Nat) : Nat → Nat → Prop
  | one {c b : Nat} : TakesFrom g nodes specs c b → Draws g nodes specs c b
  | more {c b a : Nat} : TakesFrom g nodes specs c b → Draws g nodes specs b a → Draws g nodes specs c a

/-- A node which neither is an instance nor takes from one. -/
def Plain (g : Mro.Classes) (nodes : Dict Str Nat) (specs : Nat → List Nat) (c : Nat) : Prop :=
  instSource g nodes specs c = none ∧ ∀ d, Draws g nodes specs c d → instSource g nodes specs d = none

/-- The value of a composed attribute: the first opinion met going from instance to instance source, or
what the last of them has. -/
inductive Chosen (g : Mro.Classes) (nodes : Dict Str Nat) (specs : Nat → List Nat) (a : Str) : Nat → Val → Prop
  | here {c : Nat} {v : Val} : firstTable a (tablesOf g specs c) = some v → v.hasOpinion →
      Chosen g nodes specs a c v
  | last {c : Nat} {v : Val} : firstTable a (tablesOf g specs c) = some v → instSource g nodes specs c = none →
      Chosen g nodes specs a c v
  | next {c b : Nat} {v w : Val} : firstTable a (tablesOf g specs c) = some w → w.hasOpinion = false →
      instSource g nodes specs c = some b → Chosen g nodes specs a b v → Chosen g nodes specs a c v

/-- Not one of the three attributes composed by the instance arc, nor the source of one. -/
def Untouched (k : Str) : Prop :=
  ∀ a ∈ ["_enabled".toList, "_comment".toList, "_code".toList], k ≠ a ∧ k ≠ a ++ "_source__nxt".toList

instance (k : Str) : Decidable (Untouched k) := by unfold Untouched; infer_instance

/-- The nodes of layers as spec nodes are made (nxt_node.py:101-162): each at the path of some namespace,
with the path of its parent and with the attributes every spec has. -/
structure SpecNodes (layers : List Comp.LayerNodes) : Prop where
  ok : ∀ l ∈ layers, Dict.Ok l
  path : ∀ l ∈ layers, ∀ p n, (p, n) ∈ l → ∃ ns, Names ns ∧ p = render ns
  parent : ∀ l ∈ layers, ∀ ns n, Names ns → (render ns, n) ∈ l →
    get? "_parent_path".toList n = some (.str (parentText ns))
  keys : ∀ l ∈ layers, ∀ p n, (p, n) ∈ l → ∀ a ∈ ["_instance", "_enabled", "_comment", "_code"].map String.toList,
    (get? a n).isSome

/-- The value of an attribute of the user: the nearest node in the lineage, and there the strongest layer,
which has it. -/
def layered (layers : List Comp.LayerNodes) (ns : List Str) (k : Str) : Option Val :=
  (lineage ns).findSome? (fun q => (stack layers (render q)).findSome? (get? k))

end Nxt.Spec
