import Verif.Model.Resolve
/-!
# Model of looking up the references in a value (nxt/stage.py)

The tokens of a value are a set in the code (tokens.py:178), so only membership in the lists here is
meaningful.
-/
namespace Nxt.Sources
open Py Tokens Resolve

/-- The kinds of tokens of tokens.py:42-49 a caller may ask for. -/
inductive Typ where
  | file
  | filepath
  | contents
  | path
  | color
  | attr
deriving DecidableEq, Repr

/-- The kind `determine_token_type` (stage.py:1842-1858) gives, when it is one a caller may ask for. -/
def typOf {N : Type} : Kind N → Option Typ
  | .unknown => none
  | .plugin _ => none
  | .file => some .file
  | .filepath => some .filepath
  | .contents => some .contents
  | .path => some .path
  | .color => some .color
  | .attr => some .attr

/-- stage.py:1788-1816 `get_tokens_from` for a text; no kind stands for `TOKENTYPE.ALL`.  The kind is
determined from the whole token, not from its content. -/
def tokensFrom {N : Type} (plugins : List (Plugin N)) (text : Str) (want : Option Typ) : List Str :=
  match want with
  | none => getAtomicTokens text
  | some k => (getAtomicTokens text).filter (fun t => typOf (tokenKind plugins t) = some k)

/-- stage.py:1819-1839 `next_token_partition`. -/
def nextTokenPartition (text : Str) : Option (Str × Str × Str) :=
  match rpartition? PREFIX text with
  | none => none
  | some (before, rest) =>
    match partition? SUFFIX rest with
    | none => none
    | some (token, after) => some (before, token, after)

/-- stage.py:2281-2289 and 2298-2305, one token: what it adds.  A node without a path is as in
`Resolve.attrRef`. -/
def sourceStep {N : Type} (g : Graph N) (n : N) (acc : Out (List Str)) (t : Str) : Out (List Str) :=
  acc.bind fun refs =>
    let ref := getTokenContent t
    if Path.isAttrPath ref = false then .ok refs
    else if g.pathOf n = [] ∧ ¬ startsWith ref ['/'] then .raised
    else match Path.expandRelative (some ref) (g.pathOf n) with
      | none => .ok refs
      | some q => .ok (refs ++ [q])

/-- The references of a text: stage.py:2292-2306 `get_node_code_external_sources`, where the text is the
code as it is written. -/
def textSources {N : Type} (g : Graph N) (n : N) (text : Str) : Out (List Str) :=
  (tokensFrom g.plugins text (some .attr)).foldl (sourceStep g n) (.ok [])

/-- `str` of `get_node_attr_value` (stage.py:1676-1706) with `resolved=False`.  `None` of a protected
attribute gives `None` as a text, which has no tokens either. -/
def rawText : Resolve.Attr → Str
  | .missing => []
  | .none => []
  | .str s => s
  | .other _ s => s

/-- stage.py:2262-2290 `get_node_attr_external_sources`. -/
def attrSources {N : Type} (g : Graph N) (n : N) (a : Str) : Out (List Str) :=
  textSources g n (rawText (g.attr n a))

end Nxt.Sources
