import Verif.Model.Dict
/-!
# Model of file paths: historical values, file roots, environment variables, saving to a temp folder
-/
namespace Nxt.FilePaths
open Py

/-! ## Historical values, plugins/file_fallbacks.py -/

/-- plugins/file_fallbacks.py:111-130 `generate_historical_values`: all values it yields.
`value depth` is the resolved text at that depth, `none` when there is no active layer (the early
exit).  Resolving itself (`historical_resolve_file_ref`) is a parameter. -/
def historicalValues (value : Nat → Option Str) (first last : Nat) : List Str :=
  (List.range' first (last - first)).foldl (fun seen depth =>
    match value depth with
    | none => seen
    | some v => if v ≠ [] ∧ v ∉ seen then seen ++ [v] else seen) []

/-- plugins/file_fallbacks.py:86-108 `resolve_file_token_with_fallbacks`: the first value, or the
empty text. -/
def withFallbacks (value : Nat → Option Str) (first last : Nat) : Str :=
  match historicalValues value first last with
  | [] => []
  | v :: _ => v

/-- plugins/file_fallbacks.py:227-234 `iter_env_roots`: `env` is the variable `NXT_FILE_ROOTS`,
`sep` is `os.pathsep`. -/
def envRoots (sep : Char) (exists? : Str → Bool) (env : Option Str) : List Str :=
  match env with
  | none => []
  | some t => (split sep t).filter exists?

/-- The loop over the roots, plugins/file_fallbacks.py:245-248. -/
def firstExisting (expand : Str → Str → Str) (exists? : Str → Bool) (file : Str) : List Str → Option Str
  | [] => none
  | root :: roots =>
    let full := expand file root
    if exists? full then some full else firstExisting expand exists? file roots

/-- plugins/file_fallbacks.py:237-253 `file_root_fallback`; `expand path start` is
`nxt_path.full_file_expand`. -/
def rootFallback (expand : Str → Str → Str) (exists? : Str → Bool) (roots : List Str) (file : Str)
    (layerDir : Option Str) : Str :=
  match firstExisting expand exists? file roots with
  | some full => full
  | none =>
    match layerDir with
    | none => []
    | some d =>
      if d ≠ [] ∧ exists? d then
        let full := expand file d
        if exists? full then full else []
      else []

/-! ## Environment variables, nxt_path.py:38-100 -/

/-- The class `[a-zA-Z_]`. -/
def isVarChar (c : Char) : Bool := c.isAlpha || c = '_'

/-- `re.findall(r"%([a-zA-Z_]*)%", s)`, nxt_path.py:42; the number counts characters of a match still
to be skipped. -/
def findWin : Nat → Str → List Str
  | _, [] => []
  | k + 1, _ :: cs => findWin k cs
  | 0, c :: cs =>
    let v := cs.takeWhile isVarChar
    if c = '%' ∧ (cs.drop v.length).head? = some '%' then v :: findWin (v.length + 1) cs
    else findWin 0 cs

/-- `re.findall(r"\$([a-zA-Z_]*)", s)`, nxt_path.py:41. -/
def findNix : Nat → Str → List Str
  | _, [] => []
  | k + 1, _ :: cs => findNix k cs
  | 0, c :: cs =>
    if c = '$' then
      let v := cs.takeWhile isVarChar
      v :: findNix v.length cs
    else findNix 0 cs

/-- `"%{}%".format(v)`, nxt_path.py:51. -/
def winVar (v : Str) : Str := '%' :: v ++ ['%']

/-- `"${}".format(v)`, nxt_path.py:50. -/
def nixVar (v : Str) : Str := '$' :: v

/-- nxt_path.py:64-100 `unify_env_vars`; `win` is the target platform `win32`, otherwise it is
`linux`, `linux2` or `darwin`, which share one pattern.  So there is one foreign pattern, and its
variables are replaced one after the other in the whole text. -/
def unifyEnvVars (win : Bool) (path : Str) : Str :=
  if win then (findNix 0 path).foldl (fun r v => replace r (nixVar v) (winVar v)) path
  else (findWin 0 path).foldl (fun r v => replace r (winVar v) (nixVar v)) path

/-! ## Saving to a temp folder, stage.py:4015-4055 -/

/-- `os.path.basename` (POSIX). -/
def basename (p : Str) : Str :=
  match rpartition? ['/'] p with
  | none => p
  | some (_, b) => b

/-- The loop of stage.py:4038-4047 at position `k` of the list being rewritten: `for ref in refs`
reads position `k` of the list as it is now, the result goes to position `idx`. -/
def tempLoop {V : Type} : Nat → Nat → Nat → List Str → Dict Str V → List Str × Dict Str V
  | 0, _, _, refs, overs => (refs, overs)
  | n + 1, k, idx, refs, overs =>
    match refs[k]? with
    | none => (refs, overs)
    | some ref =>
      if basename ref = ref then tempLoop n (k + 1) idx refs overs
      else
        let overs := match Dict.get? ref overs with
          | none => overs
          | some v => Dict.set (basename ref) v (Dict.erase ref overs)
        tempLoop n (k + 1) (idx + 1) (refs.set idx (basename ref)) overs

/-- stage.py:4036-4047: the references and the overrides as saved. -/
def tempRefs {V : Type} (refs : List Str) (overs : Dict Str V) : List Str × Dict Str V :=
  tempLoop refs.length 0 0 refs overs

/-- stage.py:4031-4051: the files written, from the weakest layer to the strongest; a layer is its
real path and its data.  A path written twice keeps the last data. -/
def tempFiles {V : Type} (layers : List (Str × V)) : Dict Str V :=
  layers.reverse.foldl (fun fs l => Dict.set (basename l.1) l.2 fs) []

end Nxt.FilePaths
