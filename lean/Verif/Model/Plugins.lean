import Verif.Model.Disk
import Verif.Model.Fallbacks
/-!
# Model of the plugins: finding and loading them (nxt/plugin_loader.py) and the resolvers of the file tokens
(nxt/plugins/file_fallbacks.py)

A module is what it registers: its tokens, in order.  A module which raises while it is loaded registers nothing
(simplification: tokens registered before the exception are left out; the import of nxt fails anyway).
-/
namespace Nxt.Plugins
open Py Resolve

/-- What becomes of a module name in a directory: `imp.find_module` raises `ImportError`, `imp.load_module` raises, or
there is a module. -/
inductive Found (M : Type) where
  | missing
  | broken
  | good (m : M)

/-- A directory of `PLUGIN_DIRS` (constants.py:56): whether it is there, its files, and the modules in it. -/
structure Dir (M : Type) where
  isDir : Bool
  files : List Str
  find : Str → Found M

/-- The modules loaded by their names, in order. -/
abbrev Loaded (M : Type) := List (Str × M)

/-- plugin_loader.py:22-32, the files of one directory; whether a module raised. -/
def loadFiles {M : Type} (find : Str → Found M) : List Str → Loaded M → Loaded M × Bool
  | [], l => (l, false)
  | f :: fs, l =>
    let name := (Disk.splitext f).1
    if name ∈ l.map (·.1) then loadFiles find fs l
    else match find name with
      | .missing => loadFiles find fs l
      | .broken => (l, true)
      | .good m => loadFiles find fs (l ++ [(name, m)])

/-- plugin_loader.py:15-32 `load_plugins`. -/
def loadPlugins {M : Type} : List (Dir M) → Loaded M → Loaded M × Bool
  | [], l => (l, false)
  | d :: ds, l =>
    if d.isDir then
      match loadFiles d.find d.files l with
      | (l, true) => (l, true)
      | (l, false) => loadPlugins ds l
    else loadPlugins ds l

/-- tokens.py:18-36 `register_token`, for all modules: the tokens in the order of their registration. -/
def tokensOf {M N : Type} (toks : M → List (Plugin N)) (l : Loaded M) : List (Plugin N) := l.flatMap (fun p => toks p.2)

/-- plugins/file_fallbacks.py:35-60 `resolve_filepath_token`: `at? depth v` is the text `v` resolved at a depth. -/
def resolveFile (at? : Nat → Str → Option Str) (first last : Nat) (cleaned : Str) : Str :=
  let token := Tokens.makeTokenStr (Fallbacks.FILE ++ cleaned)
  FilePaths.withFallbacks (fun d => at? d token) first last

/-- plugins/file_fallbacks.py:63-82 `resolve_filelist_token` and `resolve_file_list_token` with a composite layer, as a
list. -/
def resolveFileList (at? : Nat → Str → Option Str) (first last : Nat) (cleaned : Str) : List Str :=
  let token := Tokens.makeTokenStr (Fallbacks.FILE_LIST ++ cleaned)
  FilePaths.historicalValues (fun d => at? d token) first last

/-- plugins/file_fallbacks.py:272-279: where the path of a path token begins. -/
def pathRoot (exists? : Str → Bool) (roots : List Str) (layerDir cwd : Str) : Str :=
  match roots with
  | root :: _ => root
  | [] => if exists? layerDir then layerDir else cwd

/-- plugins/file_fallbacks.py:270-280 `resolve_path_token_in_roots`, after `stage.resolve` made `value` of the content. -/
def resolvePath (expand : Str → Str → Str) (exists? : Str → Bool) (roots : List Str) (layerDir cwd value : Str) : Str :=
  expand value (pathRoot exists? roots layerDir cwd)

end Nxt.Plugins
