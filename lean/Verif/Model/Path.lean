import Verif.Model.Py
/-!
# Model of the node-path functions of `nxt/nxt_path.py`

`x is WORLD` is read as equality with `'/'` (one-character strings are unique objects in CPython).
-/
namespace Nxt.Path
open Py

/-- nxt_path.py:103 `NODE_SEP`. -/
def SEP : Char := '/'
/-- nxt_path.py:104 `ATTR_SEP`. -/
def ATTR_SEP : Char := '.'
/-- nxt_path.py:105 `WORLD = NODE_SEP`. -/
def WORLD : Str := ['/']

/-- First component of `s.rpartition('/')` (empty when there is no separator). -/
def rpartHead (s : Str) : Str :=
  match rpartition? [SEP] s with
  | some (a, _) => a
  | none => []

/-- Last component of `s.rpartition('/')` (the whole text when there is no separator). -/
def rpartLast (s : Str) : Str :=
  match rpartition? [SEP] s with
  | some (_, b) => b
  | none => s

/-- Loop body of nxt_path.py:128-138. -/
def expandStep (cur directive : Str) : Str :=
  if directive = ['.', '.'] then rpartHead cur
  else if directive = ['.'] then cur
  else if directive = [] then cur
  else cur ++ [SEP] ++ directive

/-- nxt_path.py:108-139 `expand_relative_node_path`.  `none` is Python's `None`; the start path is a
string (Python would raise on `None` as soon as a directive is applied to it). -/
def expandRelative (rel : Option Str) (start : Str) : Option Str :=
  match rel with
  | none => none
  | some [] => none
  | some r =>
    if r = WORLD then some r
    else if startsWith r [SEP] then some r
    else some ((split SEP r).foldl expandStep start)

/-- nxt_path.py:252-260 `is_attr_path`. -/
def isAttrPath (p : Str) : Bool := p.contains ATTR_SEP

/-- nxt_path.py:142-164 `path_attr_partition`; the `none` attribute is Python's `None`. -/
def pathAttrPartition (p : Str) : Str × Option Str :=
  if ¬ isAttrPath p then (p, none)
  else if p.getLast? = some ATTR_SEP then (p, none)
  else match rpartition? [ATTR_SEP] p with
    | some (a, b) => (a, some b)
    | none => ([], some p)

/-- nxt_path.py:185-194. -/
def nodePathFromAttrPath (p : Str) : Str := (pathAttrPartition p).1
/-- nxt_path.py:197-206. -/
def attrNameFromAttrPath (p : Str) : Option Str := (pathAttrPartition p).2

/-- nxt_path.py:167-176 `str_path_to_node_namespace`. -/
def toNamespace (p : Str) : List Str :=
  let np := (pathAttrPartition p).1
  if startsWith np [SEP] then (split SEP np).drop 1 else split SEP np

/-- nxt_path.py:179-182 `node_namespace_to_str_path`. -/
def fromNamespace (ns : List Str) : Str := [SEP] ++ join [SEP] ns

/-- nxt_path.py:209-220 `node_name_from_node_path`. -/
def nodeName (p : Str) : Str := if p = WORLD then WORLD else rpartLast p

/-- nxt_path.py:223-236 `get_parent_path`. -/
def parentPath (p : Str) : Str :=
  if p = WORLD then []
  else if rpartHead p = [] then WORLD else rpartHead p

/-- nxt_path.py:239-249 `get_root_path`. -/
def rootPath (p : Str) : Str :=
  [SEP] ++ (match partition? [SEP] (p.drop 1) with
    | some (a, _) => a
    | none => p.drop 1)

/-- nxt_path.py:263-273 `make_attr_path`. -/
def makeAttrPath (p a : Str) : Str := p ++ [ATTR_SEP] ++ a

/-- nxt_path.py:276-291 `join_node_paths` with a tuple of further paths. -/
def joinNodePaths (p : Str) (qs : List Str) : Str := replace (join [SEP] (p :: qs)) [SEP, SEP] [SEP]

/-- nxt_path.py:276-291 `join_node_paths` with a single second path (lines 287-288). -/
def joinNodePath (p q : Str) : Str := joinNodePaths p [q]

/-- nxt_path.py:351-353 `_add_path_terminator`. -/
def addTerminator (p : Str) : Str := p ++ [SEP]

/-- nxt_path.py:294-315 `replace_ancestor`. -/
def replaceAncestor (path old new : Str) : Str :=
  let path := addTerminator path
  let old := addTerminator old
  let new := addTerminator new
  let newPath := if old = WORLD then new ++ path else replaceOne path old new
  replace newPath.dropLast [SEP, SEP] [SEP]

/-- nxt_path.py:318-330 `is_ancestor`. -/
def isAncestor (path anc : Str) : Bool :=
  if anc = WORLD then true else startsWith path (anc ++ [SEP])

theorem rpartHead_length (p : Str) (h : p ≠ []) : (rpartHead p).length < p.length := by
  unfold rpartHead
  have key : ∀ (s a b : Str), rpartition? [SEP] s = some (a, b) → a.length < s.length := by
    intro s
    induction s with
    | nil => intro a b h; simp [rpartition?] at h
    | cons c cs ih =>
      intro a b h
      rw [rpartition?] at h
      split at h
      · rename_i he
        simp only [Option.some.injEq, Prod.mk.injEq] at h
        obtain ⟨rfl, rfl⟩ := h
        have := ih _ _ he
        simp; exact this
      · split at h
        · simp only [Option.some.injEq, Prod.mk.injEq] at h
          obtain ⟨rfl, rfl⟩ := h
          simp
        · simp at h
  split
  · rename_i he; exact key _ _ _ he
  · exact List.length_pos_iff.2 h

/-- Loop of nxt_path.py:345-347.  It always stops: the parent of a path which is not the world is
the world or shorter. -/
def ancestorLoop (parent : Str) : List Str :=
  if parent = WORLD then []
  else parent :: ancestorLoop (parentPath parent)
termination_by if parent = WORLD then 0 else parent.length + 1
decreasing_by
  rename_i h1
  rw [if_neg h1]
  split
  · omega
  · rename_i h2
    unfold parentPath at h2 ⊢
    rw [if_neg h1] at h2 ⊢
    split
    · rename_i h3; rw [if_pos h3] at h2; exact absurd rfl h2
    · rename_i h3
      have := rpartHead_length parent (by rintro rfl; exact h3 rfl)
      omega

/-- nxt_path.py:333-348 `all_ancestor_paths`. -/
def allAncestorPaths (p : Str) : List Str :=
  if p = WORLD then [] else ancestorLoop (parentPath p)

/-- nxt_path.py:356-367 `get_path_depth`. -/
def pathDepth (p : Str) : Nat := if p = WORLD then 0 else count SEP p

/-- nxt_path.py:370-389 `trim_to_depth` for non-negative depths (all callers pass such). -/
def trimToDepth (p : Str) (d : Nat) : Str :=
  if d = 0 then WORLD
  else if pathDepth p ≤ d then p
  else rsplitHead SEP (pathDepth p - d) p

end Nxt.Path
