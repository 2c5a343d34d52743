import Verif.Model.Py
/-!
# Specification vocabulary for node paths: a well formed path is the rendering of a list of names
-/
namespace Nxt.Spec

/-- A legal node name for path purposes: non-empty, without `/` and `.`. -/
def IsName (n : Str) : Prop := n ≠ [] ∧ '/' ∉ n ∧ '.' ∉ n

/-- All names of a namespace are legal. -/
def Names (ns : List Str) : Prop := ∀ n ∈ ns, IsName n

instance (n : Str) : Decidable (IsName n) := inferInstanceAs (Decidable (_ ∧ _ ∧ _))
instance (ns : List Str) : Decidable (Names ns) := inferInstanceAs (Decidable (∀ n ∈ ns, _))

/-- `/a/b/c` for `[a, b, c]`, without a special case: the empty list gives the empty text. -/
def slashed : List Str → Str
  | [] => []
  | n :: ns => '/' :: (n ++ slashed ns)

/-- The path of a namespace: the world path `/` for the empty list, else `/a/b/c`. -/
def render (ns : List Str) : Str := if ns = [] then ['/'] else slashed ns

/-- Pushing and popping names as told by the parts of a relative path. -/
def walk (stack : List Str) : List Str → List Str
  | [] => stack
  | d :: ds =>
    if d = ['.', '.'] then walk stack.dropLast ds
    else if d = ['.'] ∨ d = [] then walk stack ds
    else walk (stack ++ [d]) ds

end Nxt.Spec
