import Verif.Spec.JsonGrammar
/-!
# Specification: keys written twice
-/
namespace Nxt.Spec

/-- `HeldAt v way w`: going into `v` along `way`, by indices of lists and keys of dicts, one comes to `w`; of the entries of
a dict with one key the last counts. -/
inductive HeldAt : Val → List (Nat ⊕ Str) → Val → Prop
  | here (v : Val) : HeldAt v [] v
  | item (before after : List Val) (v : Val) (way : List (Nat ⊕ Str)) (w : Val) : HeldAt v way w →
      HeldAt (.list (before ++ v :: after)) (.inl before.length :: way) w
  | entry (before after : List (Str × Val)) (k : Str) (v : Val) (way : List (Nat ⊕ Str)) (w : Val) :
      (∀ e ∈ after, e.1 ≠ k) → HeldAt v way w → HeldAt (.dict (before ++ (k, v) :: after)) (.inr k :: way) w

/-- Not a list and not a dict. -/
def Atom : Val → Prop
  | .list _ => False
  | .dict _ => False
  | _ => True

/-- Every name once, where it comes first. -/
def firstTimes : List Str → List Str
  | [] => []
  | k :: l => k :: (firstTimes l).filter (· ≠ k)

end Nxt.Spec
