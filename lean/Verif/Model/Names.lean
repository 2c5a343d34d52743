import Verif.Model.Path
/-!
# Model of name generation: `legalize_name`, `get_unique_node_name`, `get_unique_attr_name`,
`get_unused_graph_name`

The Unicode character classes are parameters: `isDigit` is `str.isdigit` on one character, `isWord`
is the regular expression class `\w`.
-/
namespace Nxt.Names
open Py Path

/-- What is used of the two character classes. -/
structure CharClass where
  isDigit : Char → Bool
  isWord : Char → Bool

/-- Facts about CPython's tables: digits are word characters, `_` is a word character and no digit,
the path separators are no word characters, the ten ASCII digits are digits. -/
structure CharClass.Ok (cc : CharClass) : Prop where
  digit_word : ∀ c, cc.isDigit c = true → cc.isWord c = true
  underscore_word : cc.isWord '_' = true
  underscore_digit : cc.isDigit '_' = false
  slash : cc.isWord '/' = false
  dot : cc.isWord '.' = false
  ascii : ∀ c ∈ "0123456789".toList, cc.isDigit c = true

/-- stage.py:410-418 `legalize_name`.  `none` is the `IndexError` of `name[0]` on the empty text.
`re.sub` replaces every character outside the class by an underscore. -/
def legalize (cc : CharClass) (name : Str) : Option Str :=
  match name with
  | [] => none
  | c :: cs =>
    let n := if cc.isDigit c then '_' :: c :: cs else c :: cs
    some (n.map (fun c => if cc.isWord c then c else '_'))

/-- The ten ASCII digits. -/
def digitChar (n : Nat) : Char := Char.ofNat (48 + n)

/-- Python `str(n)` for a natural number. -/
def dec (n : Nat) : Str :=
  if n < 10 then [digitChar n] else dec (n / 10) ++ [digitChar (n % 10)]

/-- Python `int(s)` on ASCII digits. -/
def decVal (s : Str) : Nat := s.foldl (fun acc c => 10 * acc + (c.toNat - 48)) 0

/-- The `while True` loops of stage.py:458-466, 496-508 and session.py:57-66: try the current name,
else the stem with the next number.  `fuel` bounds the number of rounds; `none` means the loop is
still running. -/
def search (taken : Str → Bool) (stem : Str) : Nat → Nat → Str → Option Str
  | 0, _, _ => none
  | fuel + 1, num, test =>
    if taken test then search taken stem fuel (num + 1) (stem ++ dec (num + 1)) else some test

/-- Result of a modelled function: it raised `IndexError`, it is still running, or it returned. -/
inductive Res where
  | indexError
  | running
  | ok (name : Str)
  deriving DecidableEq, Repr

def Res.ofSearch : Option Str → Res
  | none => .running
  | some n => .ok n

/-- stage.py:442-451: the name the search starts from. -/
def wantedNodeName (cc : CharClass) : Option Str → Option Str
  | none => some "node".toList
  | some n =>
    match legalize cc n with
    | none => none
    | some l => some (if l = "__name__".toList then l ++ ['1'] else l)

/-- stage.py:420-467 `get_unique_node_name`; `paths` are the node paths of the layer searched
(`layer.lookup` is a dict lookup, nodes are true). -/
def uniqueNodeName (cc : CharClass) (paths : List Str) (parent : Str) (name : Option Str)
    (fuel : Nat) : Res :=
  match wantedNodeName cc name with
  | none => .indexError
  | some n =>
    let taken := fun t => decide (joinNodePath parent t ∈ paths)
    if taken n then Res.ofSearch (search taken n fuel 1 n) else .ok n

/-- nxt_layer.py:1115-1144 `get_node_local_attr_names`: `attrs` gives, per active layer having the
node, the keys of the node's `__dict__`; `prot` is `INTERNAL_ATTRS.PROTECTED`. -/
def localAttrNames (prot : List Str) (attrs : List (List Str)) : List Str :=
  attrs.foldl (fun acc keys => keys.foldl (fun acc a =>
    if a ∈ acc then acc else if a ∈ prot then acc
    else if endsWith a "__nxt".toList then acc else acc ++ [a]) acc) []

/-- Trailing ASCII digits. -/
def isAsciiDigit (c : Char) : Bool := "0123456789".toList.contains c

/-- `s.rstrip('0123456789')`, stage.py:494. -/
def rstripDigits (s : Str) : Str := (s.reverse.dropWhile isAsciiDigit).reverse

/-- stage.py:469-510 `get_unique_attr_name`. -/
def uniqueAttrName (cc : CharClass) (prot : List Str) (attrs : List (List Str))
    (name : Option Str) (fuel : Nat) : Res :=
  match (match name with | none => some "attr".toList | some n => legalize cc n) with
  | none => .indexError
  | some n =>
    let base := rstripDigits n
    let digits := n.drop base.length
    let num := if digits ≠ [] then decVal digits else 1
    Res.ofSearch (search (fun t => decide (t ∈ localAttrNames prot attrs ++ prot)) base fuel num n)

/-- session.py:43-68 `get_unused_graph_name`.  The loop condition `result_name == ''` makes a free
empty name loop for ever. -/
def unusedGraphName (loaded : List Str) (name : Str) : Nat → Nat → Str → Option Str
  | 0, _, _ => none
  | fuel + 1, num, cand =>
    if cand ∈ loaded then unusedGraphName loaded name fuel (num + 1) (name ++ dec (num + 1))
    else if cand = [] then unusedGraphName loaded name fuel num cand
    else some cand

/-- session.py:43-68, from its start. -/
def getUnusedGraphName (loaded : List Str) (name : Str) (fuel : Nat) : Option Str :=
  unusedGraphName loaded name fuel 0 name

end Nxt.Names
