import Verif.Spec.Sources
import Verif.Model.Fallbacks
/-!
# Specification vocabulary for file tokens at a depth of the layers
-/
namespace Nxt.Spec

/-- The reference `r`, read at the node at `path`, names the attribute `a` of the node at path `q`. -/
inductive PastNames (path : Str) : Str → Str → Str → Prop
  | other {r p a q : Str} : SplitRef r p a → Path.expandRelative (some p) path = some q → PastNames path r q a
  | own {r q : Str} : (∀ p a, ¬ SplitRef r p a) → Path.expandRelative (some path) path = some q →
      PastNames path r q r

/-- `Recalls path value s out`: `out` is the text `s` with every token replaced by the value of the attribute
it names, and so on in the values, with all references read at the node at `path`.  No token is within
another, `$${` does not occur, and what replaces a token contains and begins none. -/
inductive Recalls (path : Str) (value : Str → Str → Option Str) : Str → Str → Prop
  | text {s out : Str} {ts : List Str} {v m q a : Str → Str} : FlatTokens s ts →
      (∀ x y, s ≠ x ++ ['$', '$', '{'] ++ y) →
      (∀ c, ['$', '{'] ++ c ++ ['}'] ∈ ts → AttrContent c ∧ ∀ u, c ≠ "filelist::".toList ++ u) →
      (∀ c, ['$', '{'] ++ c ++ ['}'] ∈ ts → PastNames path c (q c) (a c)) →
      (∀ c, ['$', '{'] ++ c ++ ['}'] ∈ ts → value (q c) (a c) = some (v c)) →
      (∀ c, ['$', '{'] ++ c ++ ['}'] ∈ ts → Inert (m (['$', '{'] ++ c ++ ['}']))) →
      (∀ c, ['$', '{'] ++ c ++ ['}'] ∈ ts → Recalls path value (v c) (m (['$', '{'] ++ c ++ ['}']))) →
      Renders m s out → Recalls path value s out

/-- All tokens of a text name an attribute of a node given from the root on. -/
def FromRoot (s : Str) : Prop :=
  ∀ ts c, Parse s ts true → ['$', '{'] ++ c ++ ['}'] ∈ ts → ∃ u a, SplitRef c ('/' :: u) a

end Nxt.Spec
