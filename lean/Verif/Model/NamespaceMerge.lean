import Verif.Model.Py
/-!
# Model of `Stage.namespace_merger` (`nxt/stage.py`)

The namespaces are lists of names.
-/
namespace Nxt.NamespaceMerge

/-- stage.py:2534, `target_parent_path`. -/
def parentOf (source target : List Str) : List Str :=
  if 1 < target.length ∧ source ≠ [] then target.dropLast else target

/-- stage.py:2538 and 2549, `begin`. -/
def beginOf (source : List Str) : Nat := if 1 < source.length then 1 else 0

/-- `source_suffix[:-begin]`; `[:-0]` is the empty list. -/
def cutOf (suffix : List Str) (begin : Nat) : List Str := if begin = 0 then [] else suffix.dropLast

/-- stage.py:2541-2545 and 2552-2556, one turn of the loop over the target; with `matched_path` and `changed`. -/
def scanStep (target suffix cut : List Str) (acc : List Str × Bool) (i : Nat) : List Str × Bool :=
  if (target.drop i).take suffix.length = cut then (acc.1.take i ++ suffix, true) else acc

/-- stage.py:2541-2545 and 2552-2556, the loop. -/
def scan (source target : List Str) : List Str × Bool :=
  let suffix := source.drop (beginOf source)
  (List.range target.length).foldl (scanStep target suffix (cutOf suffix (beginOf source))) (parentOf source target, false)

/-- stage.py:2560-2580, the loop over both namespaces, from the index `i` on.  The tests `i - 1 in range(len_source)` and
line 2573 (a repetition of line 2572) always hold. -/
def even (source target : List Str) : Nat → List (Str × Str) → List Str → List Str
  | _, [], path => path
  | i, (s, t) :: rest, path =>
    if i = 0 then even source target (i + 1) rest [t]
    else if s = t then even source target (i + 1) rest (path ++ [t])
    else if i + 1 < target.length ∧ target[i + 1]? = some s then
      if source[i - 1]? = some t then path ++ source.drop (i - 1) else path ++ [t] ++ source.drop i
    else if source[i - 1]? = some t then even source target (i + 1) rest (path ++ source.drop (i - 1))
    else path ++ source.drop i

/-- stage.py:2584-2586, one turn of the loop over the shorter namespace. -/
def headStep (longer short : List Str) (path : List Str) (i : Nat) : List Str :=
  if i + 1 < longer.length ∧ longer[i]? ≠ short[i]? then short.take (i + 1) ++ longer.drop (i + 1) else path

/-- stage.py:2515-2587 `namespace_merger`.  `none` is the `IndexError` of `target_ns[0]`. -/
def namespaceMerger (source target : List Str) : Option (List Str) :=
  if target.length < source.length ∧ target = [] then none
  else if target.length < source.length ∧ source.head? ≠ target.head? then
    let r := scan source target
    some (if r.2 then r.1 else target ++ source.drop target.length)
  else if source.length < target.length ∧ source ≠ [] then
    let r := scan source target
    some (if r.2 then r.1 else target ++ source.drop (beginOf source))
  else if target.length = source.length then some (even source target 0 (source.zip target) (parentOf source target))
  else if source ≠ [] ∧ source.head? = target.head? then
    let longer := if target.length < source.length then source else target
    let short := if source.length < target.length then source else target
    some ((List.range short.length).foldl (headStep longer short) (parentOf source target))
  else some (parentOf source target)

end Nxt.NamespaceMerge
