import Verif.Model.Sources
/-!
# Model of the resolving of file tokens at a depth of the layers (nxt/plugins/file_fallbacks.py)

What `infer_lower_comp` gives for a node at the depth is an oracle: `value q a` is
`getattr(historical_node, a, None) or ''` for the node looked up at the path `q`.  No value stands for an
exception: `infer_lower_comp` fails for a node which is not there unless the depth is 0, where the value is
empty, and a value which is not a text fails in `replace` (line 223).

The tokens of a text come as a set in the code (tokens.py:178); `ord` is the order in which its members are
taken.
-/
namespace Nxt.Fallbacks
open Py Tokens Resolve Sources

/-- What is read at one depth.  `root` is `file_root_fallback` (lines 237-253, see `Verif.Model.FilePaths`)
from the directory of the strongest active layer; `path` is the path of the node. -/
structure Past where
  path : Str
  value : Str → Str → Option Str
  root : Str → Str
  ord : List Str → List Str

/-- plugins/file_fallbacks.py:17: the prefix of a file token. -/
def FILE : Str := "file::".toList
/-- plugins/file_fallbacks.py:18: the prefix of a file list token. -/
def FILE_LIST : Str := "filelist::".toList

/-- plugins/file_fallbacks.py:24 `INVALID_PATH`. -/
def INVALID : Str := "<invalid>".toList

/-- The tokens registered by the plugin (plugins/file_fallbacks.py:27-32, 259-269 and 284-285); their
resolvers are not called here. -/
def PLUGINS : List (Plugin Unit) :=
  [FILE, FILE_LIST, "path::".toList].map (fun pre => ⟨pre, fun c => startsWith c pre, fun _ _ => none⟩)

/-- plugins/file_fallbacks.py:187-207: the value of the attribute a reference names.  The node has a path. -/
def refValue (P : Past) (c : Str) : Out Str :=
  let go (src a : Str) : Out Str :=
    match Path.expandRelative (some src) P.path with
    | none => .raised
    | some q => match P.value q a with
      | none => .raised
      | some v => .ok v
  match Path.pathAttrPartition c with
  | (p, some a) => if p ≠ [] ∧ a ≠ [] then go p a else go P.path c
  | (_, none) => go P.path c

/-- plugins/file_fallbacks.py:156-166, one token of the value. -/
def fileStep (P : Past) (rec : Str → Out Str) (pre : Str) (acc : Out Str) (t : Str) : Out Str :=
  acc.bind fun out =>
    let raw := match partition? pre (getTokenContent t) with | some (_, r) => r | none => []
    (rec raw).bind fun r =>
      let r := if r = [] ∧ raw ≠ [] then INVALID else r
      .ok (replace out t (P.root r))

/-- plugins/file_fallbacks.py:133-167 `historical_resolve_file_ref`; `pre` is the prefix of the token given,
`rec` is `historical_resolve_attr_ref`. -/
def histFile (P : Past) (rec : Str → Out Str) (pre v : Str) : Out Str :=
  let ts := getStandaloneTokens v [pre]
  let start := if ts = [] ∧ v ≠ [] then P.root v else v
  ts.foldl (fileStep P rec pre) (.ok start)

/-- plugins/file_fallbacks.py:210-222, one token of the value of a reference. -/
def settleStep (P : Past) (rec : Str → Out Str) (acc : Out Str) (t : Str) : Out Str :=
  acc.bind fun cur =>
    match tokenKind PLUGINS (getTokenContent t) with
    | .attr => rec cur
    | .plugin p => if p.pre = FILE then histFile P rec FILE t else .ok cur
    | _ => .ok cur

/-- plugins/file_fallbacks.py:208-222: the tokens in the value of a reference; the prefix of attribute
references is empty. -/
def settle (P : Past) (rec : Str → Out Str) (v : Str) : Out Str :=
  (getStandaloneTokens v [[], FILE]).foldl (settleStep P rec) (.ok v)

/-- plugins/file_fallbacks.py:187-224, one token. -/
def attrStep (P : Past) (rec : Str → Out Str) (acc : Out Str) (t : Str) : Out Str :=
  acc.bind fun out =>
    let c := getTokenContent t
    (refValue P c).bind fun v => (settle P rec v).bind fun v => .ok (replace out (makeTokenStr c) v)

/-- plugins/file_fallbacks.py:170-224 `historical_resolve_attr_ref`, at most `fuel` calls deep. -/
def histAttr (P : Past) : Nat → Str → Out Str
  | 0, _ => .deep
  | fuel + 1, s => (P.ord (tokensFrom PLUGINS s (some .attr))).foldl (attrStep P (histAttr P fuel)) (.ok s)

/-- plugins/file_fallbacks.py:133-167 as called for a token at a depth (lines 118-130). -/
def fileAt (P : Past) (fuel : Nat) (pre v : Str) : Out Str := histFile P (histAttr P fuel) pre v

end Nxt.Fallbacks
