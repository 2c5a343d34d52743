import Verif.Model.Quotes
/-!
# Specification: literals of texts
-/
namespace Nxt.Spec

/-- `LitText s t`: in Python, `t` is a literal of the text `s`, without escapes.  Between single marks there is no mark
and no end of line; between threefold marks the first threefold mark is the end. -/
inductive LitText : Str → Str → Prop
  | short (q : Char) (s : Str) : q = '\'' ∨ q = '"' → (∀ c ∈ s, c ≠ q ∧ c ≠ '\\' ∧ c ≠ '\n') →
      LitText s (q :: s ++ [q])
  | long (q : Char) (s : Str) : q = '\'' ∨ q = '"' → (∀ c ∈ s, c ≠ '\\') →
      (¬∃ a b, b ≠ [] ∧ s ++ [q, q, q] = a ++ [q, q, q] ++ b) → LitText s ([q, q, q] ++ s ++ [q, q, q])

/-- The marks the documentation of `w` has for the numbers. -/
def documentedMark : Int → Option Str
  | 1 => some ['\'']
  | 2 => some ['"']
  | 3 => some ['\'', '\'', '\'']
  | 4 => some ['"', '"', '"']
  | _ => none

end Nxt.Spec
