import Verif.Model.Py
/-!
# Model of the list helpers: `list_merger`, `composite_lists`, `sort_multidimensional_list`
-/
namespace Nxt.Lists

variable {α : Type} [DecidableEq α]

/-- Python `l.insert(i, x)` for `i ≥ 0` (past the end it appends). -/
def insertAt (l : List α) (i : Nat) (x : α) : List α := l.take i ++ x :: l.drop i

/-- nxt_node.py:349-376, the insertion index of the overlay item at `idx`.  The first `elif match`
(line 360) is dead code because `prev_idx >= 0` always holds. -/
def insertIndex (src tgt : List α) (idx : Nat) : Nat :=
  if idx < src.length then                       -- lines 350-354: src_order[idx] exists
    let prev := idx - 1                          -- line 356
    if src[prev]? = tgt[prev]? then idx          -- lines 357-359, offset 0
    else if idx + 1 < src.length ∧ idx + 1 < tgt.length ∧ src[idx + 1]? = tgt[idx + 1]? then
      idx + (idx + 1)                            -- lines 363-369, offset next_idx
    else idx
  else idx                                       -- line 376

/-- nxt_node.py:346-378, the loop over the overlay (`rest` is what is left of `tgt` from `idx`).
The test `insert >= 0` of line 371 is always true. -/
def mergeLoop (src tgt : List α) : Nat → List α → List α → List α
  | _, [], merged => merged
  | idx, item :: rest, merged =>
    if item ∈ src then mergeLoop src tgt (idx + 1) rest merged
    else mergeLoop src tgt (idx + 1) rest (insertAt merged (insertIndex src tgt idx) item)

/-- nxt_node.py:379-381: each item of the (already reversed) list is moved to the front. -/
def moveFront : List α → List α → List α
  | [], merged => merged
  | x :: xs, merged => moveFront xs (x :: merged.erase x)

/-- nxt_node.py:319-382 `list_merger`. -/
def listMerger (base overlay : List α) : List α :=
  if base = overlay then base
  else
    let onlySource := if ∀ x ∈ overlay, x ∉ base then base.filter (fun n => n ∉ overlay) else []
    if ∀ x ∈ overlay, x ∈ base then base
    else moveFront onlySource.reverse (mergeLoop base overlay 0 overlay base)

/-- stage.py:4212-4223, loop over one list; `all` is the whole list, `rest` what is left from `idx`. -/
def compositeLoop (all : List α) : Nat → List α → List α → List α
  | _, [], comp => comp
  | idx, item :: rest, comp =>
    if item ∈ comp then compositeLoop all (idx + 1) rest comp
    else if idx < comp.length then
      let offset := if 1 ≤ idx ∧ comp[idx - 1]? = all[idx - 1]? then 0 else 1
      compositeLoop all (idx + 1) rest (insertAt comp (idx + offset) item)
    else compositeLoop all (idx + 1) rest (comp ++ [item])

/-- stage.py:4209-4224 `composite_lists`. -/
def compositeLists (l1 l2 : List α) : List α := compositeLoop l2 0 l2 (compositeLoop l1 0 l1 [])

omit [DecidableEq α] in
/-- nxt_layer.py:1211-1222, the inner loop: `steps` comparisons starting at the head.  The head is
`multi_list[ii]`, whose length is in `item_len`. -/
def bubblePass (key : α → Nat) : Nat → List α → List α
  | steps + 1, x :: y :: rest =>
    if key y < key x then y :: bubblePass key steps (x :: rest)
    else x :: bubblePass key steps (y :: rest)
  | _, l => l

omit [DecidableEq α] in
/-- nxt_layer.py:1207-1223, the outer loop, `n` rounds left; the inner bound is `list_len - i - 1`. -/
def bubbleLoop (key : α → Nat) (len : Nat) : Nat → Nat → List α → List α
  | 0, _, l => l
  | n + 1, i, l => bubbleLoop key len n (i + 1) (bubblePass key (len - i - 1) l)

omit [DecidableEq α] in
/-- nxt_layer.py:1182-1224 `sort_multidimensional_list`; `key` is the length of the sub list sorted
by.  The outer loop runs for `i = 0 … len` inclusive. -/
def sortMulti (key : α → Nat) (l : List α) : List α := bubbleLoop key l.length (l.length + 1) 0 l

end Nxt.Lists
