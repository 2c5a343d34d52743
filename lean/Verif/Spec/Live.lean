import Verif.Model.Live
import Verif.Spec.Flow
import Verif.Spec.Resolve
/-!
# Specification of references while nodes are run
-/
namespace Nxt.Spec
open Dict

/-- The text a reference is replaced with, for the value referred to: nothing for a missing value and for `None`, a text
as it is, `str` of any other value. -/
def refText (text : Val → Str) : Option Val → Str
  | none => []
  | some .none => []
  | some (.str s) => s
  | some v => text v

/-- What code gets for a resolved text: the value if the text is the literal of a value which is no text. -/
def LiteralOf (lit : Str → Flow.Lit) (out : Str) (u : Val) : Prop :=
  ((lit out = .raw ∨ lit out = .str) ∧ u = .str out) ∨ lit out = .val u

/-- The token `tok` in a text of the node `c` refers to an attribute of the user's of a node, and `r` is the text of the
value this attribute has, which has no references itself; `now` are the values of the attributes of all nodes. -/
def RefersNow (x : Live.Around) (builtins : List Str) (nodes : Dict Str Nat) (g : Mro.Classes)
    (now : Nat → Str → Option Val) (c : Nat) (tok r : Str) : Prop :=
  ∃ content q a d, tok = ['$', '{'] ++ content ++ ['}'] ∧ AttrContent content ∧ opens content = 0 ∧
    (∀ p ∈ x.plugins, p.detect content = false) ∧ RefNames (Live.graphOf x builtins nodes g) c content q a ∧
    get? q nodes = some d ∧ FlowName builtins a ∧ r = refText x.text (now d a) ∧ Inert r

end Nxt.Spec
