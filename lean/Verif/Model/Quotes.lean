import Verif.Model.Py
/-!
# Model of the helper `w` of node code (stage.py:4153-4170)

Simplification: the text to be wrapped is a `str`.
-/
namespace Nxt.Quotes

/-- The second argument: a number or a text. -/
inductive Arg where
  | number (i : Int)
  | text (t : Str)

/-- stage.py:4164. -/
def QUOTE_TYPES : List Str := [['\''], ['"'], ['\'', '\'', '\''], ['"', '"', '"']]

/-- Indexing a list as Python does; `none` is an `IndexError`. -/
def index (l : List Str) (i : Int) : Option Str :=
  if 0 ≤ i then l[i.toNat]? else if -i ≤ l.length then l[(l.length + i).toNat]? else none

/-- stage.py:4153-4170 `w`. -/
def w (s : Str) (a : Arg) : Option Str :=
  match (match a with
    | .number i => index QUOTE_TYPES i
    | .text t => some t) with
  | none => none
  | some char => some (char ++ s ++ char)

end Nxt.Quotes
