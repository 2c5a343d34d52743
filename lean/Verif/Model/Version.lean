import Verif.Model.Dict
/-!
# Model of file versions (`load_file_data`, nxt/nxt_io.py; `FileConverter`, nxt/legacy.py)
-/
namespace Nxt.Version

/-- Characters removed by `int()` around a number.  Simplification: white space beyond latin-1 is
left out. -/
def isSpace (c : Char) : Bool :=
  (9 ≤ c.toNat && c.toNat ≤ 13) || (28 ≤ c.toNat && c.toNat ≤ 32) || c.toNat = 0x85 || c.toNat = 0xa0

/-- A decimal digit.  Simplification: ASCII digits only. -/
def isDigit (c : Char) : Bool := 48 ≤ c.toNat && c.toNat ≤ 57

/-- `s.strip()`. -/
def strip (s : Str) : Str := (((s.dropWhile isSpace).reverse).dropWhile isSpace).reverse

/-- The value of a run of digits. -/
def digitsVal (s : Str) : Nat := s.foldl (fun n c => 10 * n + (c.toNat - 48)) 0

/-- Python's unsigned integer literal as `int()` takes it: groups of digits joined by single `_`. -/
def parseNat (s : Str) : Option Nat :=
  if (Py.split '_' s).all (fun g => !g.isEmpty && g.all isDigit) then
    some (digitsVal (Py.split '_' s).flatten)
  else none

/-- Python `int(s)` for a text; `none` is `ValueError`. -/
def parseInt (s : Str) : Option Int :=
  match strip s with
  | '-' :: r => (parseNat r).map (fun n : Nat => -(n : Int))
  | '+' :: r => (parseNat r).map (fun n : Nat => (n : Int))
  | r => (parseNat r).map (fun n : Nat => (n : Int))

/-- nxt_io.py:90-91, legacy.py:53-54: `major, minor = [int(n) for n in v.split('.')[0:2]]`;
`none` is `ValueError`. -/
def majorMinor (v : Str) : Option (Int × Int) :=
  match Py.split '.' v with
  | a :: b :: _ =>
    match parseInt a, parseInt b with
    | some m, some n => some (m, n)
    | _, _ => none
  | _ => none

/-- version.json, `GRAPH`. -/
def GRAPH_MAJOR : Int := 1
def GRAPH_MINOR : Int := 17

/-- constants.py:20-28 `GRAPH_VERSION.VERSION_STR`. -/
def VERSION_STR : Str := "1.17".toList

/-- What `load_file_data` does with a file. -/
inductive Gate where
  /-- `IOError`: the version has no dot -/
  | invalid
  /-- `ValueError` from `int` -/
  | unparsable
  /-- `IOError`: saved with a newer version -/
  | tooNew
  /-- handed to the legacy converter -/
  | convert
  /-- used as it is -/
  | asIs
  deriving DecidableEq

/-- nxt_io.py:78-103: the decision taken on the version text. -/
def gateText (v : Str) : Gate :=
  if Py.count '.' v = 0 then .invalid
  else match majorMinor v with
    | none => .unparsable
    | some (major, minor) =>
      if major > GRAPH_MAJOR ∨ (major = GRAPH_MAJOR ∧ minor > GRAPH_MINOR) then .tooNew
      else if major = 0 ∨ minor < GRAPH_MINOR then .convert
      else .asIs

/-- nxt_io.py:78-103 `load_file_data`, from the entry `version` of the file (`none` when missing) on. -/
def gate (version : Option Str) : Gate :=
  match version with
  | none => gateText VERSION_STR
  | some v => if v.isEmpty then gateText VERSION_STR else gateText v

/-! ### Converter -/

/-- legacy.py:47-64: what `determine_version` returns or raises. -/
inductive Determined where
  | unparsable
  | tooOld
  | preRelease
  | minor (n : Int)
  deriving DecidableEq

/-- legacy.py:47-64 `determine_version`, from `file_data.get('version', '0.45.0')` on. -/
def determineVersion (version : Option Str) : Determined :=
  match majorMinor (version.getD "0.45.0".toList) with
  | none => .unparsable
  | some (major, minor) =>
    if major = 0 ∧ minor ≥ 39 then .preRelease
    else if major = 0 ∧ minor < 39 then .tooOld
    else .minor minor

/-- The end of a conversion. -/
inductive Res (D : Type) where
  | ok (d : D)
  | fail
  | outOfFuel

/-- A table of converters, `FILE_VERSIONS` (legacy.py:573-578) without the pre-release entry, by key.
A converter gives `none` when it raises. -/
abbrev Table (D : Type) := List (Int × (D → Option D))

/-- legacy.py:37-45: the loop over versions, at most `fuel` rounds. -/
def convLoop {D : Type} (table : Table D) : Nat → Int → D → Res D
  | 0, _, _ => .outOfFuel
  | fuel + 1, v, d =>
    match (match Dict.get? v table with | some c => c d | none => some d) with
    | none => .fail
    | some d => if v = GRAPH_MINOR then .ok d else convLoop table fuel (v + 1) d

/-- legacy.py:23-45 `FileConverter.__init__`; `version` reads the entry `version` of the data and `pre`
is the converter of pre-release files. -/
def convertFile {D : Type} (version : D → Option Str) (pre : D → Option D) (table : Table D)
    (fuel : Nat) (d : D) : Res D :=
  match determineVersion (version d) with
  | .unparsable => .fail
  | .tooOld => .fail
  | .minor n => convLoop table fuel n d
  | .preRelease =>
    match pre d with
    | none => .fail
    | some d =>
      match determineVersion (version d) with
      | .minor n => convLoop table fuel n d
      | .preRelease => .fail
      | _ => .fail

end Nxt.Version
