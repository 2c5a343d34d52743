import Verif.Spec.Flow
import Verif.Spec.ExecReopen
import Verif.Spec.Reopen
/-!
# Specification: two graphs which compute the same
-/
namespace Nxt.Spec
open Dict Mro

/-- Two stages, with their nodes by path, look alike: the same paths, and at each path the same values of the user and
the same code, or none. -/
def LooksAlike (builtins : List Str) (nodes nodes' : Dict Str Nat) (g g' : Classes) : Prop :=
  (∀ p, (get? p nodes).isSome = (get? p nodes').isSome) ∧
  ∀ p c c', get? p nodes = some c → get? p nodes' = some c' →
    (∀ a, FlowName builtins a → g.attr? c a = g'.attr? c' a) ∧
    Alike (g.attr c "_code".toList) (g'.attr c' "_code".toList)

/-- The two worlds are the same but for the layer, and texts and code of stages which look alike resolve to the same. -/
def SameTexts (nodes nodes' : Dict Str Nat) (e e' : Flow.Env) : Prop :=
  e' = { e with
    layer := e'.layer
    resolve := e'.resolve
    code := e'.code } ∧
  ∀ g g', LooksAlike e.builtins nodes nodes' g g' →
    ∀ p c c', get? p nodes = some c → get? p nodes' = some c' → e.code g c = e'.code g' c' ∧ e.resolve g c = e'.resolve g' c'

/-- The same value for every name. -/
def SameDict (d d' : Dict Str Val) : Prop := ∀ a, get? a d = get? a d'

/-- What code does depends on the values it finds in its frame and in the globals, not on how these are ordered; and
code leaves each global once. -/
def LookupOnly (e : Flow.Env) : Prop :=
  (∀ code f f', SameDict f.self f'.self → SameDict f.globals f'.globals →
    (e.exec code f).2 = (e.exec code f').2 ∧ SameDict (e.exec code f).1.self (e.exec code f').1.self ∧
    SameDict (e.exec code f).1.globals (e.exec code f').1.globals) ∧
  ∀ code f, Dict.Ok f.globals → Dict.Ok (e.exec code f).1.globals

/-- Every value of the user is one a file holds as it is: none at all, or neither empty nor unknown to JSON. -/
def FileValues (builtins : List Str) (layers : List Comp.LayerNodes) : Prop :=
  ∀ T ∈ layers, ∀ p n, (p, n) ∈ T → ∀ a v, FlowName builtins a → get? a n = some v →
    v = .none ∨ v.truthy = true ∧ v.serialisable = true

end Nxt.Spec
