import Verif.Model.NodeData
/-!
# Model of Python classes as nodes: method resolution order and base classes (nxt/stage.py)

Nodes are Python classes; what a composite node inherits is decided by Python's method resolution order.
Classes are numbers; class `0` is `Node` (nxt_node.py:95-100).  The class `object` at the end of every
order is left out, it has none of the attributes asked for.

The linearisation is the one of the Python reference (C3): CPython keeps the order of every class in it
and computes it anew for the class and all below it whenever `__bases__` is assigned; on a conflict, or a
class below itself, the assignment raises `TypeError` and changes nothing.
-/
namespace Nxt.Mro
open Dict

variable {α : Type} [DecidableEq α]

/-- The first head which is in no tail. -/
def pick (all : List (List α)) : List (List α) → Option α
  | [] => none
  | [] :: ls => pick all ls
  | (h :: _) :: ls => if ∀ l ∈ all, h ∉ l.tail then some h else pick all ls

/-- Take `h` from the front of the lists. -/
def strip (h : α) (l : List α) : List α := if l.head? = some h then l.tail else l

/-- The merge of C3; `fuel` at least the number of all items gives the answer. -/
def mergeLoop : Nat → List (List α) → Option (List α)
  | 0, ls => if ∀ l ∈ ls, l = [] then some [] else none
  | fuel + 1, ls =>
    if ∀ l ∈ ls, l = [] then some []
    else match pick ls ls with
      | none => none
      | some h => (mergeLoop fuel (ls.map (strip h))).map (h :: ·)

/-- The merge of C3, `none` on a conflict. -/
def merge (ls : List (List α)) : Option (List α) := mergeLoop (ls.map List.length).sum ls

/-- All results, or none. -/
def allSome {β : Type} : List (Option β) → Option (List β)
  | [] => some []
  | none :: _ => none
  | some b :: l => (allSome l).map (b :: ·)

/-- The resolution order of a class, given the bases of all classes; at most `fuel` levels. -/
def lin (bases : α → List α) : Nat → α → Option (List α)
  | 0, _ => none
  | fuel + 1, c =>
    match allSome ((bases c).map (lin bases fuel)) with
    | none => none
    | some ls => (merge (ls ++ [bases c])).map (c :: ·)

/-- All classes: `size` many, their bases and their own tables. -/
structure Classes where
  size : Nat
  bases : Nat → List Nat
  own : Nat → Dict Str Val

/-- `c.__mro__`; `size` levels suffice, as no class is below itself. -/
def Classes.mro (g : Classes) (c : Nat) : Option (List Nat) := lin g.bases g.size c

/-- `getattr(c, k, None)` with its presence: the first class in the order which has the key. -/
def Classes.attr? (g : Classes) (c : Nat) (k : Str) : Option Val :=
  (g.mro c).bind (fun l => l.findSome? (fun d => get? k (g.own d)))

/-- `getattr(c, k, None)`. -/
def Classes.attr (g : Classes) (c : Nat) (k : Str) : Val := (g.attr? c k).getD .none

/-- `c.__bases__ = bs`; `none` is a `TypeError`. -/
def Classes.setBases (g : Classes) (c : Nat) (bs : List Nat) : Option Classes :=
  let g' := { g with bases := fun d => if d = c then bs else g.bases d }
  if ∀ d < g.size, (g'.mro d).isSome then some g' else none

/-- stage.py:3364-3369 `_add_base_class`; a class is never falsy. -/
def Classes.addBase (g : Classes) (c b : Nat) : Option Classes := g.setBases c (g.bases c ++ [b])

/-- stage.py:3393-3402: the bases left by the loops over `current_bases` and `incoming_bases`. -/
def Classes.weakBases (g : Classes) (c b : Nat) : List Nat :=
  (g.bases c).foldl (fun weak d => (g.bases b).foldl (fun weak e =>
    if d ∈ (g.mro e).getD [] ∧ d ∈ weak then weak.erase d else weak) weak) (g.bases c)

/-- stage.py:3388-3406 `_safe_mro_add_base_class`; `changed` is set exactly when a base was removed.
Assigning an equal tuple (line 3378) changes nothing. -/
def Classes.safeAddBase (g : Classes) (c b : Nat) : Option Classes :=
  if b ∈ g.bases c then some g
  else if g.weakBases c b = g.bases c then g.addBase c b
  else g.setBases c (g.weakBases c b ++ [b])

end Nxt.Mro
