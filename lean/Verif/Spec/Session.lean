import Verif.Model.Session
/-!
# Specification: which graphs are open
-/
namespace Nxt.Spec
open Session

/-- By the answers given so far, graph `g` is open: it was made and has not been dropped since. -/
def Open (log : List Answer) (g : Graph) : Prop :=
  ∃ before after, log = before ++ .made g :: after ∧ .dropped g.uid ∉ after

end Nxt.Spec
