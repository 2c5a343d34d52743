import Verif.Model.Py
/-!
# Specification vocabulary for file versions
-/
namespace Nxt.Spec

/-- `s` is the decimal text of `n`: at least one ASCII digit, most significant first (leading zeros
are fine). -/
inductive Decimal : Str → Nat → Prop
  | one (c : Char) (h : '0' ≤ c ∧ c ≤ '9') : Decimal [c] (c.toNat - '0'.toNat)
  | snoc (s : Str) (n : Nat) (c : Char) (h : '0' ≤ c ∧ c ≤ '9') :
      Decimal s n → Decimal (s ++ [c]) (10 * n + (c.toNat - '0'.toNat))

/-- Groups of digits joined by single underscores, and the digits. -/
inductive IntDigits : Str → Str → Prop
  | last {g : Str} : g ≠ [] → (∀ c ∈ g, '0' ≤ c ∧ c ≤ '9') → IntDigits g g
  | group {g r t : Str} : g ≠ [] → (∀ c ∈ g, '0' ≤ c ∧ c ≤ '9') → IntDigits r t → IntDigits (g ++ '_' :: r) (g ++ t)

/-- The white space of latin-1. -/
def blankChars : List Char :=
  ['\t', '\n', '\x0b', '\x0c', '\r', '\x1c', '\x1d', '\x1e', '\x1f', ' ', '\u0085', '\u00a0']

/-- A text Python takes as an integer: digits with single underscores between them, possibly a sign before, white space
around. -/
def IntText (s : Str) (z : Int) : Prop :=
  ∃ pre body post t, ∃ n : Nat, (∀ c ∈ pre ++ post, c ∈ blankChars) ∧ IntDigits body t ∧ Decimal t n ∧
    ((s = pre ++ body ++ post ∧ z = n) ∨ (s = pre ++ '+' :: body ++ post ∧ z = n) ∨ (s = pre ++ '-' :: body ++ post ∧ z = -n))

/-- `(a, b)` comes before `(c, d)`. -/
def Before (a b c d : Int) : Prop := a < c ∨ (a = c ∧ b < d)

/-- One after the other; a converter which raises ends the conversion. -/
def applyAll {D : Type} : List (D → Option D) → D → Option D
  | [], d => some d
  | f :: fs, d => (f d).bind (applyAll fs)

end Nxt.Spec
