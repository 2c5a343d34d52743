import Verif.Model.Flow
import Verif.Spec.Runtime
/-!
# Specification of values flowing from node to node
-/
namespace Nxt.Spec
open Dict

/-- A name which is neither Python's nor nxt's. -/
def FlowName (builtins : List Str) (a : Str) : Prop :=
  a ∉ builtins ∧ a ∉ reservedNames ∧ ¬ ∃ b, a = b ++ "__nxt".toList

/-- One run of a class and the values it wrote. -/
structure Wrote where
  cls : Nat
  vals : Str → Option Val

/-- The last value written to an attribute of a class, the runs oldest first. -/
def lastWritten (h : List Wrote) (d : Nat) (a : Str) : Option Val :=
  h.foldl (fun r w => if w.cls = d then (w.vals a).or r else r) none

/-- What a class has: what was last written to it, or what it had at the start. -/
def holds (init : Nat → Str → Option Val) (h : List Wrote) (d : Nat) (a : Str) : Option Val :=
  (lastWritten h d a).or (init d a)

/-- What a class with the given order sees: what the first class which has the attribute has. -/
def sees (init : Nat → Str → Option Val) (h : List Wrote) (order : List Nat) (a : Str) : Option Val :=
  order.findSome? (fun d => holds init h d a)

/-- The values which differ. -/
def changes (eq : Val → Val → Bool) (before after : Str → Option Val) (a : Str) : Option Val :=
  match before a, after a with
  | some x, some y => if eq x y then none else some y
  | _, _ => none

/-- The value the code sees for the value found: a text is resolved and, when it is a literal other than that of a
text, the value of the literal; anything else is as it is. -/
inductive Read (resolve : Str → Option Str) (lit : Str → Flow.Lit) : Val → Val → Prop where
  | other {v : Val} : (∀ s, v ≠ .str s) → Read resolve lit v v
  | text {s t : Str} : resolve s = some t → lit t = .raw ∨ lit t = .str → Read resolve lit (.str s) (.str t)
  | literal {s t : Str} {v : Val} : resolve s = some t → lit t = .val v → Read resolve lit (.str s) v

/-- A run of class `c`, where `found` is what the class sees: either an attribute can not be read, which is an error
and nothing is written; or the code gets a frame with exactly the values read, and unless it ends with an error the
values which are different afterwards are written. -/
def RunSays (e : Flow.Env) (resolve : Str → Option Str) (code : Str) (globals : Dict Str Val) (found : Str → Option Val)
    (out : Exec.Outcome) (wrote : Str → Option Val) : Prop :=
  ((∃ a v, FlowName e.builtins a ∧ found a = some v ∧ ∀ u, ¬ Read resolve e.lit v u) ∧ out = .error ∧
    ∀ a, wrote a = none) ∨
  ∃ f : Rt.Frame, f.globals = set "self".toList e.selfObj globals ∧
    (∀ a, FlowName e.builtins a → (found a = none ∧ get? a f.self = none) ∨
      ∃ v u, found a = some v ∧ get? a f.self = some u ∧ Read resolve e.lit v u) ∧
    out = (e.exec code f).2 ∧
    ∀ a, FlowName e.builtins a →
      wrote a = if out = .error then none
        else changes e.eq (fun a => get? a f.self) (fun a => get? a (e.exec code f).1.self) a

end Nxt.Spec
