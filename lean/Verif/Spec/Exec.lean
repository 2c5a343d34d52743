import Verif.Model.Exec
import Verif.Spec.Tree
/-!
# Specification of execution order
-/
namespace Nxt.Spec
open Dict Tree Exec

/-- `q` is the first root in the layer which executes after `p`. -/
def IsNextRoot (nodes : Nodes) (p q : Str) : Prop :=
  ∃ A n B, nodes = A ++ (q, n) :: B ∧ n.parent = ['/'] ∧ n.execIn = .str p ∧
    ∀ e ∈ A, e.2.parent = ['/'] → e.2.execIn ≠ .str p

/-- A full chain of roots: each executes after the one before, none after the last. -/
inductive ExecChain (nodes : Nodes) : Str → List Str → Prop where
  | last {p : Str} : (∀ q, ¬ IsNextRoot nodes p q) → ExecChain nodes p [p]
  | cons {p q : Str} {l : List Str} : IsNextRoot nodes p q → ExecChain nodes q l → ExecChain nodes p (p :: l)

/-- The chain of roots from `p` comes back to a root it has passed. -/
def Cyclic (nodes : Nodes) (p : Str) : Prop :=
  ∃ c, (c = p ∨ Below (IsNextRoot nodes) p c) ∧ Below (IsNextRoot nodes) c c

/-- A node is switched off: it exists and its enabled value is there and false. -/
def Off (nodes : Nodes) (p : Str) : Prop :=
  ∃ n, get? p nodes = some n ∧ n.enabled ≠ .none ∧ n.enabled.truthy = false

/-- `a` is a path above `q`. -/
def Above (a q : Str) : Prop := ∃ ns rest, Names (ns ++ rest) ∧ rest ≠ [] ∧ a = render ns ∧ q = render (ns ++ rest)

/-- Among the paths of `D`, neither `q` nor a path above it is switched off. -/
def Runs (nodes : Nodes) (D : List Str) (q : Str) : Prop :=
  ∀ a ∈ D, a = q ∨ Above a q → ¬ Off nodes a

open Classical in
/-- Those of `L` which run, in the order of `L`. -/
noncomputable def running (nodes : Nodes) (D L : List Str) : List Str := L.filter (fun q => decide (Runs nodes D q))

open Classical in
/-- What a whole root with listing `D` contributes. -/
noncomputable def rootBlock (nodes : Nodes) (D : List Str) (r : Str) : List Str :=
  if Off nodes r then [] else r :: running nodes D D

/-- The runs of a node paired up in order of time: enter times with exit times, as far as there are any. -/
def pairUp : List Int → List Int → List (Int × Option Int)
  | [], _ => []
  | a :: as, [] => (a, none) :: pairUp as []
  | a :: as, b :: bs => (a, some b) :: pairUp as bs

/-- The times of the enter events (`x = false`) or exit events (`x = true`) of a path. -/
def timesOf (x : Bool) (p : Str) (es : List (Bool × Str × Int)) : List Int :=
  (es.filter (fun e => decide (e.1 = x ∧ e.2.1 = p))).map (fun e => e.2.2)

/-- The value found for a node does not say the node is disabled. -/
def notOff : Option Val → Bool
  | some (.bool false) => false
  | _ => true

/-- All runs have ended. -/
def AllClosed (ts : Times) : Prop := ∀ e ∈ ts, e.2.2 ≠ none

/-- The code of a node leaves earlier runs alone and records only finished ones. -/
def KeepsTimes {σ : Type} (run : Str → σ → Times → Outcome × σ × Times) : Prop :=
  ∀ p s ts, ∃ more, (run p s ts).2.2 = ts ++ more ∧ AllClosed more

/-- The runs `tr` take the state `s` to `s'`, each starting where the one before ended. -/
inductive RunChain {σ : Type} (run : Str → σ → Times → Outcome × σ × Times) : σ → List (Str × Outcome) → σ → Prop where
  | nil {s : σ} : RunChain run s [] s
  | cons {s s' : σ} {p : Str} {ts : Times} {tr : List (Str × Outcome)} :
      RunChain run (run p s ts).2.1 tr s' → RunChain run s ((p, (run p s ts).1) :: tr) s'

end Nxt.Spec
