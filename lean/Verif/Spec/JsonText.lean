import Verif.Model.JsonText
/-!
# Specification: values a graph file can hold
-/
namespace Nxt.Spec

/-- Values made of `None`, truth values, whole numbers, texts, lists and dicts, as the reader gives them. -/
inductive JsonVal : Val → Prop
  | none : JsonVal .none
  | bool (b : Bool) : JsonVal (.bool b)
  | num (n : Int) : JsonVal (.num n)
  | str (s : Str) : JsonVal (.str s)
  | list (l : List Val) : (∀ v ∈ l, JsonVal v) → JsonVal (.list l)
  | dict (d : List (Str × Val)) : (∀ e ∈ d, JsonVal e.2) → JsonVal (.dict d)

/-- The same with the pairs of texts kept as sources. -/
inductive TextVal : Val → Prop
  | none : TextVal .none
  | bool (b : Bool) : TextVal (.bool b)
  | num (n : Int) : TextVal (.num n)
  | str (s : Str) : TextVal (.str s)
  | src (l : Option Str) (p : Str) : TextVal (.src l p)
  | list (l : List Val) : (∀ v ∈ l, TextVal v) → TextVal (.list l)
  | dict (d : List (Str × Val)) : (∀ e ∈ d, TextVal e.2) → TextVal (.dict d)

/-- A character every encoding has: printable ASCII, or the end of a line. -/
def Printable (c : Char) : Prop := c = '\n' ∨ (32 ≤ c.toNat ∧ c.toNat ≤ 126)

/-- Somewhere in the value there is an object the model does not look into. -/
inductive HoldsObject : Val → Prop
  | other (i : Nat) (t s : Bool) : HoldsObject (.other i t s)
  | list (l : List Val) (v : Val) : v ∈ l → HoldsObject v → HoldsObject (.list l)
  | dict (d : List (Str × Val)) (e : Str × Val) : e ∈ d → HoldsObject e.2 → HoldsObject (.dict d)

/-- The second value is the first with one value somewhere inside it, `depth` levels down, replaced by another. -/
inductive OneChange (a b : Val) : Nat → Val → Val → Prop
  | here : OneChange a b 0 a b
  | item (depth : Nat) (before after : List Val) (v w : Val) : OneChange a b depth v w →
      OneChange a b (depth + 1) (.list (before ++ v :: after)) (.list (before ++ w :: after))
  | entry (depth : Nat) (before after : List (Str × Val)) (k : Str) (v w : Val) : OneChange a b depth v w →
      OneChange a b (depth + 1) (.dict (before ++ (k, v) :: after)) (.dict (before ++ (k, w) :: after))

end Nxt.Spec
