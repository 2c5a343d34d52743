import Verif.Model.Nested
import Verif.Spec.Exec
/-!
# Specification for node code which executes other nodes
-/
namespace Nxt.Spec
open Dict Nested

variable {W F V : Type}

/-- Lines which execute no nodes, and end well one after the other: they take the frame and the globals of the
node from the first pair to the second. -/
inductive Steps : List (Line W F V) → F × Dict Str V → F × Dict Str V → Prop
  | nil (x : F × Dict Str V) : Steps [] x x
  | cons {l : Line W F V} {ls : List (Line W F V)} {f f' : F} {g g' : Dict Str V} {y : F × Dict Str V}
      {w : F → Dict Str V → F × Dict Str V × End} :
      l.does = .work w → w f g = (f', g', .ok) → Steps ls (f', g') y → Steps (l :: ls) (f, g) y

/-- The node at `p` is there and not switched off. -/
def Runnable (e : Env W F V) (w : W) (p : Str) : Prop := ∃ v, e.look w p = some v ∧ v ≠ .bool false

/-- No run of `p` is without its exit time. -/
def Idle (ts : Exec.Times) (p : Str) : Prop := ∀ a b, (p, a, b) ∈ ts → b ≠ none

/-- The runs of a path are in the order in which they are closed: an open run is followed by open runs only. -/
def Orderly (ts : Exec.Times) : Prop := ts.Pairwise (fun x y => x.1 = y.1 → x.2.2 = none → y.2.2 = none)

/-- Every run which begins ends, those inside it before it. -/
inductive Brackets : List Event → Prop
  | nil : Brackets []
  | node (p : Str) (r : Res) {a b : List Event} : Brackets a → Brackets b → Brackets (.begun p :: a ++ .ended p r :: b)

/-- The ways to end which end the execution. -/
def Aborts (r : Res) : Prop := r = .exitGraph ∨ r = .interrupt ∨ ∃ rs, r = .error rs

/-- No code catches what comes out of a call of `execute`. -/
def Uncaught (e : Env W F V) : Prop :=
  ∀ w p code, e.code w p = .ok code → ∀ l ∈ code, ∀ c params ps st, l.does = .call c params ps st → c = false

/-- The node begun last. -/
def lastBegun (t : List Event) : Option Str :=
  (t.filterMap (fun | .begun p => some p | .ended _ _ => none)).getLast?

/-- A statement which does not change the frame of `self`. -/
def KeepsSelf (l : Line W F V) : Prop := ∀ w, l.does = .work w → ∀ f g, (w f g).1 = f

/-- All code compiles. -/
def Compiles (e : Env W F V) : Prop := ∀ w p, ∃ code, e.code w p = .ok code

/-- No line of any code declares a global variable. -/
def NoGlobals (e : Env W F V) : Prop :=
  ∀ w p code, e.code w p = .ok code → ∀ l ∈ code, Py.contains l.text "global ".toList = false

end Nxt.Spec
