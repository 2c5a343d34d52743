import Verif.Model.Tokens
import Verif.Model.Path
/-!
# Model of token resolution, `Stage.resolve` and the functions it calls
-/
namespace Nxt.Resolve
open Py Tokens

/-- The outcome of a call: `deep` when the recursion limit is exceeded (Python's `RecursionError`),
`raised` for any other exception, `ok` for a returned value. -/
inductive Out (α : Type) where
  | deep
  | raised
  | ok (a : α)
deriving Repr, DecidableEq

/-- Run the continuation on a returned value, pass exceptions on. -/
def Out.bind {α β : Type} : Out α → (α → Out β) → Out β
  | .deep, _ => .deep
  | .raised, _ => .raised
  | .ok a, k => k a

/-- What `getattr(node, name)` gives: nothing (`AttributeError`), `None`, a text, or another value
with its truth value and its `str(...)`. -/
inductive Attr where
  | missing
  | none
  | str (s : Str)
  | other (truthy : Bool) (s : Str)
deriving Repr, DecidableEq

/-- A registered token, tokens.py:19-39.  Its resolver is taken as a given function that does not
call back into the stage; `none` is a returned `None`. -/
structure Plugin (N : Type) where
  pre : Str
  detect : Str → Bool
  resolve : N → Str → Option Str

/-- What resolution reads from a layer, its nodes and the file system.
* `pathOf` is `layer.get_node_path` (nxt_layer.py:213-214), the empty path stands for `None`;
* `lookup` is `layer.lookup`; `attr` is `getattr`; no attribute is found on the `None` node;
* `isProtected` is membership in `INTERNAL_ATTRS.PROTECTED` (nxt_node.py:54);
* `color` is the colour of the node's source layer (stage.py:1884-1886);
* `expandFile` is `nxt_path.full_file_expand` from the layer's directory (stage.py:1954-1960);
* `contents` is the text of a file, `none` for an `IOError` (stage.py:1995-2000).
Nothing here is written by `resolve`. -/
structure Graph (N : Type) where
  pathOf : N → Str
  lookup : Str → Option N
  attr : N → Str → Attr
  isProtected : Str → Bool
  color : N → Option Str
  expandFile : Str → Str
  fileExists : Str → Bool
  contents : Str → Option Str
  plugins : List (Plugin N)

/-- What stage.py:1842-1858 `determine_token_type` returns. -/
inductive Kind (N : Type) where
  | unknown
  | plugin (p : Plugin N)
  | file
  | filepath
  | contents
  | path
  | color
  | attr

/-- stage.py:1842-1858 `determine_token_type`. -/
def tokenKind {N : Type} (plugins : List (Plugin N)) (c : Str) : Kind N :=
  if c = [] then .unknown
  else match plugins.find? (fun p => p.detect c) with
  | some p => .plugin p
  | none =>
    if startsWith c "file::".toList then .file
    else if startsWith c "path::".toList then .filepath
    else if startsWith c "contents::".toList then .contents
    else if c = "_nxtpath".toList then .path
    else if c = "_nxtcolor".toList then .color
    else .attr

section
variable {N : Type} (g : Graph N) (rec : N → Str → Out Str)

/-- stage.py:1676-1706 `get_node_attr_value` with `resolved=True`, as used by
`resolve_attr_ref_token`.  A false value of a protected attribute is returned as it is; when that is
not a text, `resolved.replace(token, rep)` (stage.py:1891) raises, which is recorded here. -/
def attrValue (node : Option N) (a : Str) : Out Str :=
  match node with
  | none => .ok []
  | some n =>
    match g.attr n a with
    | .missing => .ok []
    | .none => .ok []
    | .str s => if s = [] then .ok [] else rec n s
    | .other true s => rec n s
    | .other false s => if g.isProtected a then .raised else .ok s

/-- stage.py:1924-1937, the part of `resolve_attr_ref_token` reached when the node has no path. -/
def localValue (n : N) (ref : Str) : Out Str :=
  let failed : Out Str := .ok ("\"${".toList ++ ref ++ "}\"".toList)
  match g.attr n ref with
  | .missing => failed
  | .none => failed
  | .str s => if s = [] then failed else .ok s
  | .other true _ => .raised
  | .other false _ => failed

/-- stage.py:1894-1937 `resolve_attr_ref_token`.  Simplification: expanding a relative path from a
node without a path is an exception (Python raises on `None` unless all directives are `.`). -/
def attrRef (n : N) (text : Str) : Out Str :=
  (rec n text).bind fun ref =>
    let go (src a : Str) : Out Str :=
      if g.pathOf n = [] ∧ ¬ startsWith src ['/'] then .raised
      else match Path.expandRelative (some src) (g.pathOf n) with
        | none => .ok []
        | some q => attrValue g rec (g.lookup q) a
    match Path.pathAttrPartition ref with
    | (p, some a) =>
      if p ≠ [] ∧ a ≠ [] then go p a
      else if g.pathOf n ≠ [] then go (g.pathOf n) ref else localValue g n ref
    | (_, none) => if g.pathOf n ≠ [] then go (g.pathOf n) ref else localValue g n ref

/-- stage.py:1939-1960 `resolve_file_path_token`. -/
def filePathToken (n : N) (text : Str) : Out Str :=
  (rec n text).bind fun r => .ok (g.expandFile r)

/-- stage.py:1962-1980 `resolve_file_token`. -/
def fileToken (n : N) (text : Str) : Out Str :=
  (rec n text).bind fun r =>
    (filePathToken g rec n r).bind fun full => .ok (if g.fileExists full then full else [])

/-- stage.py:1982-2002 `resolve_contents_token`. -/
def contentsToken (n : N) (text : Str) : Out Str :=
  (rec n text).bind fun r =>
    match g.contents r with
    | none => .ok []
    | some s => rec n s

/-- stage.py:1864-1890, the replacement for one token (with `None` turned into the empty text). -/
def tokenRep (n : N) (token : Str) : Out Str :=
  let c := getTokenContent token
  match tokenKind g.plugins c with
  | .unknown => .ok "BADRESOLVE".toList
  | .plugin p => .ok ((p.resolve n (c.drop p.pre.length)).getD [])
  | .file => fileToken g rec n (c.drop "file::".toList.length)
  | .filepath => filePathToken g rec n (c.drop "path::".toList.length)
  | .contents => contentsToken g rec n (c.drop "contents::".toList.length)
  | .path => .ok (g.pathOf n)
  | .color => .ok ((g.color n).getD [])
  | .attr => attrRef g rec n c

end

/-- stage.py:1860-1892 `resolve`; the number is the recursion depth still allowed.  The tokens are
those of the original text, each is replaced everywhere in the text as it is by then. -/
def resolve {N : Type} (g : Graph N) : Nat → N → Str → Out Str
  | 0, _, _ => .deep
  | f + 1, n, text =>
    (getStandaloneTokens text ALL_PREFIXES).foldl (fun acc t =>
      acc.bind fun resolved => (tokenRep g (resolve g f) n t).bind fun rep =>
        .ok (replace resolved t rep)) (.ok text)

end Nxt.Resolve
