import Verif.Model.Py
/-!
# Specification vocabulary for token texts

Independent of the scanner: openers and closers are counted on plain strings, and `Parse` describes
how a text is cut into gaps and standalone tokens.
-/
namespace Nxt.Spec

/-- `1` when the character `c` followed by `n` is an opener `${`, else `0`. -/
def opener (c : Char) (n : Option Char) : Nat := if c = '$' ∧ n = some '{' then 1 else 0

/-- Number of positions where `${` occurs. -/
def opens : Str → Nat
  | [] => 0
  | c :: cs => opener c cs.head? + opens cs

/-- Number of `}`. -/
def closes (s : Str) : Nat := s.count '}'

/-- A text whose first token is still open everywhere: it starts with `${` and in every prefix
containing that opener there are fewer closers than openers. -/
def StaysOpen (u : Str) : Prop :=
  (∃ r, u = '$' :: '{' :: r) ∧ ∀ p r, u = p ++ r → 2 ≤ p.length → closes p < opens p

/-- A standalone token: starts with `${`, closers and openers balance at its end and not before. -/
def IsToken (t : Str) : Prop :=
  (∃ r, t = '$' :: '{' :: r) ∧ closes t = opens t ∧
    ∀ p r, t = p ++ r → r ≠ [] → 2 ≤ p.length → closes p < opens p

/-- `Parse s ts ok`: `s` is gaps (without opener) and the standalone tokens `ts` alternating, and
`ok` tells that no opener is left unclosed at the end. -/
inductive Parse : Str → List Str → Bool → Prop
  | done {g : Str} : opens g = 0 → Parse g [] true
  | unclosed {g u : Str} : opens g = 0 → StaysOpen u → Parse (g ++ u) [] false
  | tok {g t rest : Str} {ts : List Str} {ok : Bool} :
      opens g = 0 → IsToken t → Parse rest ts ok → Parse (g ++ t ++ rest) (t :: ts) ok

/-- An innermost token: `${` content `}` where the content has neither opener nor closer. -/
def IsAtomic (t : Str) : Prop := ∃ c : Str, t = ['$', '{'] ++ c ++ ['}'] ∧ opens c = 0 ∧ '}' ∉ c

end Nxt.Spec
