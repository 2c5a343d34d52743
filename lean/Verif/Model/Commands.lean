import Verif.Model.Runtime
import Verif.Model.Version
import Verif.Model.Names
/-!
# Model of the command line (`main`, `editor`, `execute`, `convert`, `CustomParser`, nxt/cli.py)

What argparse makes of the words is the input here; which words are refused, and with what message, is argparse's.
-/
namespace Nxt.Commands
open Py Rt

/-- How a message of argparse is answered: by ending with it, or by one of the two exceptions. -/
inductive Refusal where
  | usage | invalidChoice | unrecognizedArg
deriving DecidableEq

/-- cli.py:37-49 `CustomParser.error`. -/
def errorOf (msg : Str) : Refusal :=
  if contains msg "invalid choice".toList then
    if contains msg ".nxt".toList then .invalidChoice else .usage
  else if contains msg "unrecognized arguments".toList then
    if contains msg "-gui".toList then .unrecognizedArg else .usage
  else .usage

/-- argparse: the message for a word which is none of the commands; the texts around it depend on the version of
Python. -/
def unknownVerb (before after word : Str) : Str :=
  before ++ "invalid choice: '".toList ++ word ++ '\'' :: after

/-- cli.py:150-231: the namespace after parsing.  `legacyVerb` is the word `legacy` given by hand: its parser sets
no `which` (lines 159-163).  `fallback` is what lines 229-240 make of it.  -/
inductive Parsed where
  | noVerb
  | ui (path : Str) (noRpc : Bool)
  | exec (path : Str) (start context : Option Str) (params : List Str)
  | convert (path : Str) (replace : Option Str)
  | test
  | legacyVerb (path : Str)
  | fallback (path : Str) (gui conv replace : Bool)

/-- The flag `-v`: the main parser counts (lines 154-156), the legacy parser sets `True` (lines 162-163). -/
inductive Flag where
  | count (n : Nat)
  | yes

/-- What is done. -/
inductive Act where
  | help
  | editor (paths : List Str) (rpc : Bool)
  | convert (path : Str) (replace : Bool)
  | execute (path : Str) (start : Option Str) (params : CliParams) (context : Option Str)
deriving DecidableEq

/-- How it ends. -/
inductive End where
  | returned | exited | raised
deriving DecidableEq

/-- What the command finds: the editor, the files, and where the package is. -/
structure World where
  hasEditor : Bool
  isFile : Str → Bool
  package : Str

/-- cli.py:80-95 `editor`; `noRpc` is `none` when the namespace has no such entry. -/
def editor (w : World) (paths : List Str) (noRpc : Option Bool) : List Act × End :=
  if !w.hasEditor then ([], .returned)
  else match noRpc with
    | none => ([], .raised)
    | some b => ([.editor paths (!b)], .exited)

/-- cli.py:98-138 `execute`; `path` is the list of paths.  Simplification: a file of parameters which is no JSON
raises in line 122, here the execution goes on with it. -/
def execute (w : World) (path : List Str) (start : Option Str) (params : List Str) (context : Option Str) :
    List Act × End :=
  match cliParams params with
  | .oddCount => ([], .raised)
  | .badKey _ => ([], .raised)
  | .file p =>
    if w.isFile p then
      match path with
      | [] => ([], .raised)
      | f :: _ => ([.execute f start (.file p) context], .returned)
    else ([], .raised)
  | .params d =>
    match path with
    | [] => ([], .raised)
    | f :: _ => ([.execute f start (.params d) context], .returned)

/-- cli.py:141-147 `convert`. -/
def convert (path : List Str) (replace : Bool) : List Act × End :=
  match path with
  | [] => ([], .raised)
  | f :: _ => ([.convert f replace], .exited)

/-- One thing after the other, as long as nothing ends the process. -/
def andThen (a b : List Act × End) : List Act × End :=
  match a.2 with
  | .returned => (a.1 ++ b.1, b.2)
  | _ => a

/-- cli.py:238-240: the path of the fallback is put into a list unless it is empty; then indexing it raises. -/
def listed (path : Str) : List Str := if path = [] then [] else [path]

/-- cli.py:245-285, the end of `main`.  A text given for `-r` of `convert` is true unless it is empty. -/
def dispatch (w : World) : Parsed → List Act × End
  | .noVerb => ([.help], .exited)
  | .legacyVerb _ => ([.help], .exited)
  | .fallback path gui conv replace =>
    andThen (if gui then editor w (listed path) none else ([], .returned))
      (if conv then convert (listed path) replace else execute w (listed path) none [] none)
  | .convert path replace => convert [path] (match replace with | none => false | some r => !r.isEmpty)
  | .test => execute w [w.package ++ "/test/unittests.nxt".toList] none [] none
  | .ui path noRpc => editor w [path] (some noRpc)
  | .exec path start context params => execute w [path] start params context

/-- cli.py:241-244: what `NXT_VERBOSE` is afterwards, and the level set. -/
def verbose (env : Option Str) : Option Flag → Option Str × Option Int
  | none => (env, none)
  | some (.count 0) => (env, none)
  | some (.count n) => (some (env.getD (Names.dec n)), some n)
  | some .yes => (some (env.getD "True".toList), some 1)

end Nxt.Commands
