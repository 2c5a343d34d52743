/-!
# Python built-ins used by nxt

Strings are lists of characters.  Each definition re-implements the documented behaviour of one
CPython 3 built-in; nothing here is specific to nxt.  Separators are always non-empty in nxt, the
functions below are only meant for non-empty separators (Python raises `ValueError` on empty ones).
-/

namespace Nxt

/-- A Python `str`. -/
abbrev Str := List Char

namespace Py

/-- `s.startswith(p)`. -/
def startsWith (s p : Str) : Bool := p.isPrefixOf s

/-- `s.endswith(p)`. -/
def endsWith (s p : Str) : Bool := p.isSuffixOf s

/-- `sub in s` for a non-empty `sub` (true for every `s` when `sub` is empty). -/
def contains (s sub : Str) : Bool :=
  match s with
  | [] => sub.isEmpty
  | c :: cs => sub.isPrefixOf (c :: cs) || contains cs sub

/-- `s.partition(sep)`: `some (before, after)` around the first occurrence of `sep`;
`none` stands for Python's `(s, '', '')`. -/
def partition? (sep : Str) : Str → Option (Str × Str)
  | [] => none
  | c :: cs =>
    if sep.isPrefixOf (c :: cs) then some ([], (c :: cs).drop sep.length)
    else match partition? sep cs with
      | some (a, b) => some (c :: a, b)
      | none => none

/-- `s.rpartition(sep)`: `some (before, after)` around the last occurrence of `sep`;
`none` stands for Python's `('', '', s)`. -/
def rpartition? (sep : Str) : Str → Option (Str × Str)
  | [] => none
  | c :: cs =>
    match rpartition? sep cs with
    | some (a, b) => some (c :: a, b)
    | none => if sep.isPrefixOf (c :: cs) then some ([], (c :: cs).drop sep.length) else none

/-- Worker of `replace`: the number counts characters of a match still to be skipped. -/
def replaceGo (old new : Str) : Nat → Str → Str
  | _, [] => []
  | k + 1, _ :: cs => replaceGo old new k cs
  | 0, c :: cs =>
    if old.isPrefixOf (c :: cs) then new ++ replaceGo old new (old.length - 1) cs
    else c :: replaceGo old new 0 cs

/-- `s.replace(old, new)`: all non-overlapping occurrences from the left. -/
def replace (s old new : Str) : Str := replaceGo old new 0 s

/-- `s.replace(old, new, 1)`. -/
def replaceOne (s old new : Str) : Str :=
  match partition? old s with
  | some (a, b) => a ++ new ++ b
  | none => s

/-- `s.split(c)` for a one-character separator. Never empty. -/
def split (sep : Char) : Str → List Str
  | [] => [[]]
  | c :: cs =>
    if c = sep then [] :: split sep cs
    else match split sep cs with
      | w :: ws => (c :: w) :: ws
      | [] => [[c]]

/-- `sep.join(parts)`. -/
def join (sep : Str) : List Str → Str
  | [] => []
  | [w] => w
  | w :: ws => w ++ sep ++ join sep ws

/-- `s.count(c)` for a single character. -/
def count (c : Char) (s : Str) : Nat := List.count c s

/-- `s.rsplit(c, n)[0]`: cut at the last occurrence of `c`, `n` times (fewer if there are fewer). -/
def rsplitHead (c : Char) : Nat → Str → Str
  | 0, s => s
  | n + 1, s =>
    match rpartition? [c] s with
    | some (a, _) => rsplitHead c n a
    | none => s

end Py
end Nxt
