import Verif.Model.Commands
/-!
# Specification: what a command line asks for
-/
namespace Nxt.Spec
open Dict Commands Rt

/-- What the words after `-p` stand for: a file which is there, or pairs of a key starting at the root and a value,
the last pair of a key counting. -/
inductive WordParams (isFile : Str → Bool) : List Str → CliParams → Prop
  | file (p : Str) : isFile p = true → WordParams isFile [p] (.file p)
  | pairs (ps : List (Str × Str)) (d : Dict Str Str) : (∀ e ∈ ps, e.1.head? = some '/') → Ok d →
      (∀ k, get? k d = (ps.reverse.find? (fun e => e.1 = k)).map (fun e => e.2)) →
      WordParams isFile (ps.flatMap (fun e => [e.1, e.2])) (.params d)

/-- What each command is for. -/
inductive AskedFor (w : World) : Parsed → Act → Prop
  | help : AskedFor w .noVerb .help
  | exec (f : Str) (s c : Option Str) (ws : List Str) (ps : CliParams) : WordParams w.isFile ws ps →
      AskedFor w (.exec f s c ws) (.execute f s ps c)
  | test : AskedFor w .test (.execute (w.package ++ "/test/unittests.nxt".toList) none (.params []) none)
  | convert (f : Str) : AskedFor w (.convert f none) (.convert f false)
  | replace (f r : Str) : AskedFor w (.convert f (some r)) (.convert f true)
  | ui (f : Str) : AskedFor w (.ui f false) (.editor [f] true)
  | uiNoRpc (f : Str) : AskedFor w (.ui f true) (.editor [f] false)
  | oldExec (f : Str) (r : Bool) : AskedFor w (.fallback f false false r) (.execute f none (.params []) none)
  | oldConvert (f : Str) (g r : Bool) : AskedFor w (.fallback f g true r) (.convert f r)
  | oldGui (f : Str) (r : Bool) : AskedFor w (.fallback f true false r) (.editor [f] true)

/-- A text within a text. -/
def HoldsText (s t : Str) : Prop := ∃ a b, s = a ++ t ++ b

end Nxt.Spec
