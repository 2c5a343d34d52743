import Verif.Model.Proxies
import Verif.Spec.Path
/-!
# Specification of the proxies of a composition

Paths are lists of names.  `N p` tells whether there is a node `p` before the proxies are made, and its
instance path.
-/
namespace Nxt.Spec
open Dict Proxies

/-- The text `i`, as the instance path of `p`, means the path `r`. -/
def PointsTo (i : Str) (p r : List Str) : Prop :=
  r ≠ [] ∧ Names r ∧
    (i = render r ∨ (i ≠ [] ∧ i.head? ≠ some '/' ∧ render (walk p (Py.split '/' i)) = render r))

/-- What can be told of a composition: there is a node, or a node is an instance of a path. -/
inductive Fact where
  | node (p : List Str)
  | inst (p r : List Str)

/-- The facts which follow from the nodes at the start.  An instance of `r` has the names `x` below `r` at
which, or below which, there is a node; and each is an instance of the one below `r`, unless an empty
instance path forbids it. -/
inductive Made (N : List Str → Option (Option Str)) : Fact → Prop where
  | node {p : List Str} {i : Option Str} : Names p → N p = some i → Made N (.node p)
  | inst {p r : List Str} {i : Str} : Names p → N p = some (some i) → PointsTo i p r → Made N (.inst p r)
  | copyNode {p r rest : List Str} {x : Str} : Made N (.inst p r) → Made N (.node p) →
      Made N (.node (r ++ x :: rest)) → Made N (.node (p ++ [x]))
  | copyInst {p r rest : List Str} {x : Str} : Made N (.inst p r) → Made N (.node p) →
      Made N (.node (r ++ x :: rest)) → N (p ++ [x]) ≠ some (some []) → Made N (.inst (p ++ [x]) (r ++ [x]))

/-- No two sources for a node, and a node which is there from the start has its instance path at once if it
matters. -/
structure Uniq (N : List Str → Option (Option Str)) : Prop where
  one : ∀ p r r', Made N (.inst p r) → Made N (.inst p r') → r = r'
  early : ∀ p r i x rest, N p = some i → Made N (.inst p r) → Made N (.node (r ++ x :: rest)) →
    ∃ t, i = some t ∧ PointsTo t p r

/-- `q` is an instance of `p`, or of an instance of it, and so on. -/
inductive Feeds (N : List Str → Option (Option Str)) (p : List Str) : List Str → Prop where
  | one {q : List Str} : Made N (.inst q p) → Feeds N p q
  | more {q s : List Str} : Feeds N p q → Made N (.inst s q) → Feeds N p s

/-- Besides, where there is something to copy, no node is an instance of a path above it, and no source
takes from its instance. -/
structure Calm (N : List Str → Option (Option Str)) : Prop extends Uniq N where
  above : ∀ p r x rest, Made N (.inst p r) → Made N (.node (r ++ x :: rest)) → ∀ t, t ≠ [] → p ≠ r ++ t
  cycle : ∀ p r x rest, Made N (.inst p r) → Made N (.node (r ++ x :: rest)) → ¬ Feeds N p r

/-- The node is no instance. -/
def NoInst (N : List Str → Option (Option Str)) (a : List Str) : Prop :=
  (∀ i, N a = some (some i) → i = []) ∧ ∀ r, ¬ Made N (.inst a r)

/-- `p` is an instance of `r` from the start. -/
def InstOf (N : List Str → Option (Option Str)) (p r : List Str) : Prop :=
  Names p ∧ ∃ i, N p = some (some i) ∧ PointsTo i p r

/-- No instance is above, at or below a source, and every instance path which is not empty means a path.  A node below
an instance has no instance path of its own, and what it stands for below the source has no nodes below it. -/
structure Separate (N : List Str → Option (Option Str)) : Prop where
  apart : ∀ p r q s, InstOf N p r → InstOf N q s → ¬ q <+: r ∧ ¬ r <+: q
  means : ∀ p i, Names p → N p = some (some i) → i = [] ∨ ∃ r, PointsTo i p r
  own : ∀ p r t i, InstOf N p r → t ≠ [] → Names t → N (p ++ t) = some i →
    i = none ∧ ∀ x rest, Names (x :: rest) → N (r ++ t ++ x :: rest) = none

/-- The nodes of a composite layer by their names. -/
def nodesOf (S : St) (p : List Str) : Option (Option Str) := (get? (render p) S.nodes).map (·.inst)

/-- The child orders of a composite layer by names. -/
def ordersOf (S : St) (p : List Str) : List Str := ((get? (render p) S.nodes).map (·.order)).getD []

/-- The names which may be in a child order: those which were, those of proxies, those in the child order
of the source, and those of paths below an instanced node which have no node themselves but nodes below them. -/
inductive Listed (N : List Str → Option (Option Str)) (O : List Str → List Str) : List Str → Str → Prop where
  | own {p : List Str} {x : Str} : x ∈ O p → Listed N O p x
  | made {p : List Str} {x : Str} : Made N (.node (p ++ [x])) → N (p ++ [x]) = none → Listed N O p x
  | inst {p r : List Str} {x : Str} : Made N (.inst p r) → Listed N O r x → Listed N O p x
  | implied {q p rest : List Str} {x : Str} : Made N (.inst q p) → Made N (.node (p ++ x :: rest)) →
      N (p ++ [x]) = none → Listed N O p x

/-- A composite layer before proxies are made. -/
structure Start (S : St) : Prop where
  ok : Ok S.nodes
  path : ∀ q ∈ keys S.nodes, ∃ p, Names p ∧ q = render p
  world : ∀ i, nodesOf S [] = some (some i) → i = []
  dirty : S.dirty = []

/-- The children a layer gives for a path: the names below it at which, or below which, there is a node. -/
def GivesKids (kids : List Str → Str → List Str) : Prop :=
  ∀ paths, (∀ q ∈ paths, ∃ p, Names p ∧ q = render p) → ∀ r, r ≠ [] → r ≠ ['/'] →
    ∀ c, c ∈ kids paths r ↔ ∃ a x rest, Names (a ++ x :: rest) ∧ r = render a ∧ c = render (a ++ [x]) ∧
      render (a ++ x :: rest) ∈ paths

end Nxt.Spec
