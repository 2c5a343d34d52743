import Verif.Model.Disk
import Verif.Model.Names
/-!
# Model of the text of graph files

`json.dump(save_data, out_file, indent=4, sort_keys=False, separators=(',', ': '))` (nxt_io.py:143-145 and
legacy.py:598-600) and `json.load` (nxt_io.py:76-77, legacy.py:585-587), as the json package of Python does them.

Simplifications: numbers with a fraction or an exponent, `NaN` and `Infinity` are left out of the reader; so are
halves of surrogate pairs, which Python takes for characters.  The pairs of an object are kept as they are read; the last of
two with one key is the one in force after `Disk.byteify`.
-/
namespace Nxt.JsonText
open Names

/-! ### Writing -/

/-- A hexadecimal digit. -/
def hexDigit (n : Nat) : Char := if n < 10 then Char.ofNat (48 + n) else Char.ofNat (87 + n)

/-- `'{0:04x}'.format(n)` below 65536. -/
def hex4 (n : Nat) : Str := [hexDigit (n / 4096 % 16), hexDigit (n / 256 % 16), hexDigit (n / 16 % 16), hexDigit (n % 16)]

/-- json.encoder `py_encode_basestring_ascii`, one character. -/
def escape (c : Char) : Str :=
  if c = '"' then ['\\', '"']
  else if c = '\\' then ['\\', '\\']
  else if c = '\n' then ['\\', 'n']
  else if c = '\r' then ['\\', 'r']
  else if c = '\t' then ['\\', 't']
  else if c.toNat = 12 then ['\\', 'f']
  else if c.toNat = 8 then ['\\', 'b']
  else if 32 ≤ c.toNat ∧ c.toNat ≤ 126 then [c]
  else if c.toNat < 0x10000 then '\\' :: 'u' :: hex4 c.toNat
  else '\\' :: 'u' :: hex4 (0xd800 + (c.toNat - 0x10000) / 1024) ++
    '\\' :: 'u' :: hex4 (0xdc00 + (c.toNat - 0x10000) % 1024)

/-- A text between quotes. -/
def quote (s : Str) : Str := '"' :: s.flatMap escape ++ ['"']

/-- `int.__repr__`. -/
def intText : Int → Str
  | .ofNat n => dec n
  | .negSucc n => '-' :: dec (n + 1)

/-- json.encoder `_newline_indent`. -/
def newline (level : Nat) : Str := '\n' :: List.replicate (4 * level) ' '

mutual
/-- json.encoder `_iterencode` with `indent=4` and the separators `,` and `: `; `others` is the text of objects the
model does not look into. -/
def dump (others : Nat → Str) (level : Nat) : Val → Str
  | .none => "null".toList
  | .bool true => "true".toList
  | .bool false => "false".toList
  | .num n => intText n
  | .str s => quote s
  | .list l => if l.isEmpty then "[]".toList else '[' :: dumpItems others (level + 1) [] l ++ newline level ++ [']']
  | .dict d => if d.isEmpty then "{}".toList else '{' :: dumpPairs others (level + 1) [] d ++ newline level ++ ['}']
  | .src none p => '[' :: newline (level + 1) ++ "null,".toList ++ newline (level + 1) ++ quote p ++ newline level ++ [']']
  | .src (some l) p =>
    '[' :: newline (level + 1) ++ quote l ++ [','] ++ newline (level + 1) ++ quote p ++ newline level ++ [']']
  | .other i _ _ => others i
/-- json.encoder `_iterencode_list`; `sep` stands before the item, nothing before the first one. -/
def dumpItems (others : Nat → Str) (level : Nat) (sep : Str) : List Val → Str
  | [] => []
  | v :: l => sep ++ newline level ++ dump others level v ++ dumpItems others level [','] l
/-- json.encoder `_iterencode_dict`. -/
def dumpPairs (others : Nat → Str) (level : Nat) (sep : Str) : List (Str × Val) → Str
  | [] => []
  | (k, v) :: d =>
    sep ++ newline level ++ quote k ++ ": ".toList ++ dump others level v ++ dumpPairs others level [','] d
end

/-! ### Reading -/

/-- json.decoder `WHITESPACE`. -/
def isBlank (c : Char) : Bool := c = ' ' || c = '\t' || c = '\n' || c = '\r'

/-- Blanks are passed over. -/
def skip (s : Str) : Str := s.dropWhile isBlank

/-- The value of a hexadecimal digit. -/
def hexVal (c : Char) : Option Nat :=
  if 48 ≤ c.toNat ∧ c.toNat ≤ 57 then some (c.toNat - 48)
  else if 97 ≤ c.toNat ∧ c.toNat ≤ 102 then some (c.toNat - 87)
  else if 65 ≤ c.toNat ∧ c.toNat ≤ 70 then some (c.toNat - 55)
  else none

/-- json.decoder `_decode_uXXXX`. -/
def readHex : Str → Option (Nat × Str)
  | a :: b :: c :: d :: r =>
    match hexVal a, hexVal b, hexVal c, hexVal d with
    | some a, some b, some c, some d => some (((a * 16 + b) * 16 + c) * 16 + d, r)
    | _, _, _, _ => none
  | _ => none

/-- json.decoder `py_scanstring`, after `\u`. -/
def readUnicode (r : Str) : Option (Char × Str) :=
  match readHex r with
  | none => none
  | some (n, r) =>
    if 0xd800 ≤ n ∧ n < 0xdc00 then
      match r with
      | '\\' :: 'u' :: r =>
        match readHex r with
        | none => none
        | some (m, r) =>
          if 0xdc00 ≤ m ∧ m < 0xe000 then some (Char.ofNat (0x10000 + (n - 0xd800) * 1024 + (m - 0xdc00)), r) else none
      | _ => none
    else if 0xdc00 ≤ n ∧ n < 0xe000 then none
    else some (Char.ofNat n, r)

/-- json.decoder `BACKSLASH`. -/
def plainEscape (c : Char) : Option Char :=
  if c = '"' then some '"'
  else if c = '\\' then some '\\'
  else if c = '/' then some '/'
  else if c = 'b' then some (Char.ofNat 8)
  else if c = 'f' then some (Char.ofNat 12)
  else if c = 'n' then some '\n'
  else if c = 'r' then some '\r'
  else if c = 't' then some '\t'
  else none

/-- json.decoder `py_scanstring`: one character of a text, control characters being refused (`strict`). -/
def readChar : Str → Option (Char × Str)
  | [] => none
  | c :: r =>
    if c = '\\' then
      match r with
      | [] => none
      | e :: r => if e = 'u' then readUnicode r else (plainEscape e).map (fun x => (x, r))
    else if c.toNat < 32 then none
    else some (c, r)

/-- json.decoder `py_scanstring`, after the opening quote; at most `fuel` characters. -/
def readStr : Nat → Str → Option (Str × Str)
  | 0, _ => none
  | _ + 1, [] => none
  | fuel + 1, c :: r =>
    if c = '"' then some ([], r)
    else match readChar (c :: r) with
      | none => none
      | some (x, r) =>
        match readStr fuel r with
        | none => none
        | some (t, r) => some (x :: t, r)

/-- A decimal digit. -/
def isDigit (c : Char) : Bool := 48 ≤ c.toNat && c.toNat ≤ 57

/-- json.scanner `NUMBER_RE`, without its sign: no digit follows a leading zero, and a fraction or an exponent is left
out. -/
def readNat (s : Str) : Option (Nat × Str) :=
  match s with
  | [] => none
  | c :: r =>
    if !isDigit c then none
    else
      let ds := if c = '0' then [c] else c :: r.takeWhile isDigit
      let r := if c = '0' then r else r.dropWhile isDigit
      match r with
      | '.' :: _ => none
      | 'e' :: _ => none
      | 'E' :: _ => none
      | _ => some (decVal ds, r)

/-- json.scanner `NUMBER_RE`. -/
def readNum (s : Str) : Option (Int × Str) :=
  match s with
  | '-' :: r => (readNat r).map (fun p => (-(p.1 : Int), p.2))
  | _ => (readNat s).map (fun p => ((p.1 : Int), p.2))

/-- A fixed word. -/
def readWord (w : Str) (v : Val) (s : Str) : Option (Val × Str) :=
  if Py.startsWith s w then some (v, s.drop w.length) else none

mutual
/-- json.scanner `_scan_once`; nesting and length are bounded by `fuel`. -/
def readVal : Nat → Str → Option (Val × Str)
  | 0, _ => none
  | _ + 1, [] => none
  | fuel + 1, c :: r =>
    if c = '"' then (readStr r.length r).map (fun p => (.str p.1, p.2))
    else if c = '{' then
      match skip r with
      | '}' :: r => some (.dict [], r)
      | r => (readPairs fuel r).map (fun p => (.dict p.1, p.2))
    else if c = '[' then
      match skip r with
      | ']' :: r => some (.list [], r)
      | r => (readItems fuel r).map (fun p => (.list p.1, p.2))
    else if c = 'n' then readWord "null".toList .none (c :: r)
    else if c = 't' then readWord "true".toList (.bool true) (c :: r)
    else if c = 'f' then readWord "false".toList (.bool false) (c :: r)
    else (readNum (c :: r)).map (fun p => (.num p.1, p.2))
/-- json.decoder `JSONArray`, at an item. -/
def readItems : Nat → Str → Option (List Val × Str)
  | 0, _ => none
  | fuel + 1, s =>
    match readVal fuel s with
    | none => none
    | some (v, r) =>
      match skip r with
      | ',' :: r =>
        match readItems fuel (skip r) with
        | none => none
        | some (l, r) => some (v :: l, r)
      | ']' :: r => some ([v], r)
      | _ => none
/-- json.decoder `JSONObject`, at a key. -/
def readPairs : Nat → Str → Option (List (Str × Val) × Str)
  | 0, _ => none
  | fuel + 1, s =>
    match s with
    | '"' :: r =>
      match readStr r.length r with
      | none => none
      | some (k, r) =>
        match skip r with
        | ':' :: r =>
          match readVal fuel (skip r) with
          | none => none
          | some (v, r) =>
            match skip r with
            | ',' :: r =>
              match readPairs fuel (skip r) with
              | none => none
              | some (d, r) => some ((k, v) :: d, r)
            | '}' :: r => some ([(k, v)], r)
            | _ => none
        | _ => none
    | _ => none
end

/-- json.decoder `decode`: the value of a whole text. -/
def loadText (s : Str) : Option Val :=
  match readVal (s.length + 1) (skip s) with
  | none => none
  | some (v, r) => if (skip r).isEmpty then some v else none

/-! ### Files of text -/

/-- nxt_io.py:76-77: what a file of text is to `load_file_data`.  Simplification: a text which is JSON but no dict is not
told apart from one which is no JSON (the first ends in an `AttributeError`, the second in a `ValueError`). -/
def contentOf (text : Str) : Disk.Content :=
  match loadText text with
  | some (.dict d) => .json d
  | _ => .cut

/-- The files of Disk.lean, out of files of text. -/
def filesOf (files : Dict Str Str) : Disk.Files := files.map (fun e => (e.1, contentOf e.2))

end Nxt.JsonText
