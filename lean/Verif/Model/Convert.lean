import Verif.Model.Legacy
import Verif.Model.Disk
/-!
# Model of whole conversions (`FileConverter.get_converted_data`, `V109`, `cli_file_convert`, nxt/legacy.py)

The converter of pre-release files is a parameter.
-/
namespace Nxt.Convert
open Dict Legacy

/-! ### 1.9 to 1.10 -/

/-- `d.get(k, {})`; `none` when it is no dict. -/
def dictAt (k : Str) (d : Dict Str Val) : Option (Dict Str Val) :=
  match get? k d with
  | none => some []
  | some (.dict e) => some e
  | some _ => none

/-- legacy.py:284-291: one of the old references.  Simplification: a path which is neither a text nor false raises. -/
def refOf : Val → Option RefIn
  | .dict r =>
    let at? (k : String) : Val := (get? k.toList r).getD .none
    match at? "path" with
    | .str p => some ⟨p, at? "mute", at? "solo", at? "alias", at? "color"⟩
    | v => if v.truthy then none else some ⟨[], at? "mute", at? "solo", at? "alias", at? "color"⟩
  | _ => none

/-- All of a list, or `none`. -/
def collect {A B : Type} (f : A → Option B) : List A → Option (List B)
  | [] => some []
  | a :: l => match f a, collect f l with
    | some b, some r => some (b :: r)
    | _, _ => none

/-- An entry of `comp_overrides`.  Simplification: one which is no dict raises, even if there is no such reference. -/
def overOf : Str × Val → Option (Str × Dict Str Val)
  | (k, .dict e) => some (k, e)
  | _ => none

/-- legacy.py:306-315: what is written back. -/
def storeRefs (out : RefOut) (m d : Dict Str Val) : Dict Str Val :=
  let d := erase "references".toList d
  if out.refs.isEmpty then d
  else
    let d := set "references".toList (.list (out.refs.map Val.str)) d
    let d := if out.overs.isEmpty then d
      else set "comp_overrides".toList (.dict (out.overs.map (fun e => (e.1, .dict e.2)))) d
    let m := if out.aliases.isEmpty then m else set "aliases".toList (.dict out.aliases) m
    let m := if out.colors.isEmpty then m else set "colors".toList (.dict out.colors) m
    if m.isEmpty then d else set "meta_data".toList (.dict m) d

/-- legacy.py:274-315 `update_refs`; `none` when it raises. -/
def updateRefsData (d : Dict Str Val) : Option (Dict Str Val) :=
  match get? "references".toList d with
  | none => some d
  | some (.list []) => some d
  | some (.list refs) =>
    (dictAt "meta_data".toList d).bind fun m =>
    (dictAt "comp_overrides".toList d).bind fun o =>
    (collect overOf o).bind fun overs =>
    (dictAt "aliases".toList m).bind fun aliases =>
    (dictAt "colors".toList m).bind fun colors =>
    (collect refOf refs).map fun rs => storeRefs (updateRefs rs overs aliases colors) m d
  | some v => if v.truthy then none else some d

/-- legacy.py:321-323 and 324-326: an entry which has a value gets a new key. -/
def moveEntry (old new : Str) (m : Dict Str Val) : Dict Str Val :=
  match get? old m with
  | none => m
  | some v => if v.truthy then set new v (erase old m) else m

/-- legacy.py:317-326 `update_meta_data`. -/
def updateMeta (d : Dict Str Val) : Option (Dict Str Val) :=
  match get? "meta_data".toList d with
  | none => some d
  | some (.dict m) =>
    some (set "meta_data".toList (.dict (moveEntry "collapse_data".toList "collapse".toList
      (moveEntry "position_data".toList "positions".toList m))) d)
  | some v => if v.truthy then none else some d

/-- legacy.py:328-366 `arrange_node_data`. -/
def arrangeData (d : Dict Str Val) : Option (Dict Str Val) :=
  match get? "nodes".toList d with
  | none => some d
  | some (.dict nodes) => some (set "nodes".toList (.dict (arrangeNodes nodes)) d)
  | some _ => none

/-- legacy.py:267-272 `V109.convert`. -/
def convert109 (d : Dict Str Val) : Option (Dict Str Val) :=
  (((updateRefsData d).bind updateMeta).bind arrangeData).map (deepOrder KEYS_V109)

/-! ### All versions -/

/-- legacy.py:573-578 `FILE_VERSIONS`, without the pre-release entry. -/
def table : Version.Table (Dict Str Val) := [(9, convert109), (14, convert114), (15, convert115)]

/-- legacy.py:52: the version text.  An entry which is no text raises in line 54, as the empty text does. -/
def versionOf (d : Dict Str Val) : Option Str :=
  match get? "version".toList d with
  | none => none
  | some (.str v) => some v
  | some _ => some []

/-- legacy.py:66-75 `get_converted_data` and 94-102 `get_converted`. -/
def convertData (pre : Dict Str Val → Option (Dict Str Val)) (fuel : Nat) (d : Dict Str Val) : Version.Res (Dict Str Val) :=
  Version.convertFile versionOf pre table fuel d

/-! ### From the command line -/

/-- legacy.py:589-595: the name of the new file. -/
def outName (base : Str) (replace : Bool) : Str :=
  let p := (Py.rpartition? ['.'] base).getD ([], base)
  p.1 ++ (if replace then "." else "_CONVERTED.").toList ++ p.2

/-- legacy.py:589-597: its path; `real` is the path after line 583. -/
def outPath (real : Str) (replace : Bool) : Str :=
  match Py.rpartition? ['/'] real with
  | none => outName real replace
  | some (dir, base) => dir ++ ['/'] ++ outName base replace

/-- What becomes of a call. -/
inductive Out where
  | raised
  | endless
  | wrote (files : Disk.Files)

/-- legacy.py:581-601 `cli_file_convert`.  What was read from JSON can be written as JSON. -/
def cliConvert (pre : Dict Str Val → Option (Dict Str Val)) (fuel : Nat) (files : Disk.Files) (real : Str) (replace : Bool) :
    Out :=
  match get? real files with
  | some (.json d) =>
    match convertData pre fuel (Disk.byteify (Disk.byteify (Disk.decodeDict d))) with
    | .fail => .raised
    | .outOfFuel => .endless
    | .ok r => .wrote (set (outPath real replace) (.json (Disk.writtenDict r)) files)
  | _ => .raised

end Nxt.Convert
