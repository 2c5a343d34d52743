import Verif.Model.Py
/-!
# Model of `nxt/tokens.py`
-/
namespace Nxt.Tokens
open Py

/-- `TOKEN_PREFIX = '${'` (tokens.py, used at lines 60, 74, 110, 130, 149). -/
def PREFIX : Str := ['$', '{']
/-- `TOKEN_SUFFIX = '}'` (tokens.py, used at lines 61, 74, 114, 152). -/
def SUFFIX : Str := ['}']

/-- tokens.py:52-62 `get_token_content`.  `partition` without a match leaves `no_prefix = ''`,
`rpartition` without a match leaves `content = ''`. -/
def getTokenContent (t : Str) : Str :=
  let noPrefix := match partition? PREFIX t with
    | some (_, b) => b
    | none => []
  match rpartition? SUFFIX noPrefix with
  | some (a, _) => a
  | none => []

/-- tokens.py:65-74 `make_token_str`. -/
def makeTokenStr (c : Str) : Str := PREFIX ++ c ++ SUFFIX

/-- Loop state of tokens.py:101-105.  The sentinel `outer_start_idx = -1` is modelled by `0`: it is
only read when `starts > 0`, and then it has been assigned. -/
structure Scan where
  i : Nat := 0
  bounds : List (Nat × Nat) := []
  starts : Nat := 0
  ends : Nat := 0
  outer : Nat := 0
deriving Repr, DecidableEq

/-- Loop body of tokens.py:106-121; `next` is `raw_value[i+1]` when `i+1 < len(raw_value)`. -/
def scanStep (st : Scan) (c : Char) (next : Option Char) : Scan :=
  let st1 :=
    if c = '$' ∧ next = some '{' then
      { st with outer := if st.starts = 0 then st.i else st.outer, starts := st.starts + 1 }
    else if st.starts ≠ 0 ∧ c = '}' then { st with ends := st.ends + 1 }
    else st
  let st2 :=
    if 0 < st1.starts ∧ st1.starts = st1.ends then
      { st1 with bounds := st1.bounds ++ [(st1.outer, st1.i + 1)], starts := 0, ends := 0, outer := 0 }
    else st1
  { st2 with i := st2.i + 1 }

/-- The loop of tokens.py:106-121 over the characters still to be read. -/
def scan : Str → Scan → Scan
  | [], st => st
  | c :: cs, st => scan cs (scanStep st c cs.head?)

/-- `raw_value[start:end]` for in-range non-negative bounds. -/
def slice (s : Str) (b : Nat × Nat) : Str := (s.drop b.1).take (b.2 - b.1)

/-- tokens.py:101-127: all standalone token texts before filtering by type. -/
def standaloneAll (raw : Str) : List Str :=
  let st := scan raw {}
  if st.starts ≠ st.ends then [] else st.bounds.map (slice raw)

/-- tokens.py:77-135 `get_standalone_tokens` for a `str` argument.  `prefixes` are the prefixes of
`token_types`.  Non-string values return `[]` in Python (line 97) and are not modelled. -/
def getStandaloneTokens (raw : Str) (prefixes : List Str) : List Str :=
  (standaloneAll raw).filter (fun t => prefixes.any (fun p => startsWith t (PREFIX ++ p)))

/-- Prefixes of `TOKENTYPE.ALL` (tokens.py:42-49, without plugins): FILE, FILEPATH, PATH, CONTENTS,
COLOR, ATTR.  This is the default of `token_types` (line 99). -/
def ALL_PREFIXES : List Str :=
  ["file::".toList, "path::".toList, "_nxtpath".toList, "contents::".toList, "_nxtcolor".toList, []]

/-- tokens.py:138-158 `atomic_token_partition`; `none` stands for `(None, None, None)`. -/
def atomicTokenPartition (v : Str) : Option (Str × Str × Str) :=
  match rpartition? PREFIX v with
  | none => none
  | some (before, afterBef) =>
    match partition? SUFFIX afterBef with
    | none => none
    | some (token, after) => some (before, makeTokenStr token, after)

theorem partition?_length {sep s a b : Str} (h : partition? sep s = some (a, b)) :
    a.length + b.length ≤ s.length ∧ (sep ≠ [] → a.length + b.length < s.length) := by
  induction s generalizing a b with
  | nil => simp [partition?] at h
  | cons c cs ih =>
    rw [partition?] at h
    split at h
    · simp only [Option.some.injEq, Prod.mk.injEq] at h
      obtain ⟨rfl, rfl⟩ := h
      simp only [List.length_nil, List.length_drop, List.length_cons]
      exact ⟨by omega, fun hn => by have := List.length_pos_iff.2 hn; omega⟩
    · split at h
      · rename_i he
        simp only [Option.some.injEq, Prod.mk.injEq] at h
        obtain ⟨rfl, rfl⟩ := h
        have := ih he
        simp only [List.length_cons]
        exact ⟨by omega, fun hn => by have := this.2 hn; omega⟩
      · simp at h

theorem rpartition?_length {sep s a b : Str} (h : rpartition? sep s = some (a, b)) :
    a.length + b.length ≤ s.length ∧ (sep ≠ [] → a.length + b.length < s.length) := by
  induction s generalizing a b with
  | nil => simp [rpartition?] at h
  | cons c cs ih =>
    rw [rpartition?] at h
    split at h
    · rename_i he
      simp only [Option.some.injEq, Prod.mk.injEq] at h
      obtain ⟨rfl, rfl⟩ := h
      have := ih he
      simp only [List.length_cons]
      exact ⟨by omega, fun hn => by have := this.2 hn; omega⟩
    · split at h
      · simp only [Option.some.injEq, Prod.mk.injEq] at h
        obtain ⟨rfl, rfl⟩ := h
        simp only [List.length_nil, List.length_drop, List.length_cons]
        exact ⟨by omega, fun hn => by have := List.length_pos_iff.2 hn; omega⟩
      · simp at h

/-- Termination of the recursion of `get_atomic_tokens`: both remainders are shorter. -/
theorem atomicTokenPartition_length {v b t a : Str} (h : atomicTokenPartition v = some (b, t, a)) :
    b.length < v.length ∧ a.length < v.length := by
  unfold atomicTokenPartition at h
  split at h
  · simp at h
  · rename_i before afterBef h1
    split at h
    · simp at h
    · rename_i token after h2
      simp only [Option.some.injEq, Prod.mk.injEq] at h
      obtain ⟨rfl, _, rfl⟩ := h
      have l1 := (rpartition?_length h1).2 (by simp [PREFIX])
      have l2 := (partition?_length h2).2 (by simp [SUFFIX])
      omega

/-- tokens.py:161-179 `get_atomic_tokens`.  Python returns a set (or an empty list); the model
returns the list before `set(...)`, so only membership is meaningful.  The token text is never
empty, so `if not content` is exactly the failed partition. -/
def getAtomicTokens (v : Str) : List Str :=
  match h : atomicTokenPartition v with
  | none => []
  | some (before, token, after) =>
    [token]
      ++ (if before ≠ [] then getAtomicTokens before else [])
      ++ (if after ≠ [] then getAtomicTokens after else [])
termination_by v.length
decreasing_by
  · exact (atomicTokenPartition_length h).1
  · exact (atomicTokenPartition_length h).2

end Nxt.Tokens
