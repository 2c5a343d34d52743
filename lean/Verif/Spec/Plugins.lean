import Verif.Model.Plugins
/-!
# Specification vocabulary for plugins
-/
namespace Nxt.Spec
open Plugins

/-- The name of a module in a file: the name of the file without its last extension; a name which begins with its only
dots has none. -/
inductive ModuleName : Str → Str → Prop
  | cut {name ext : Str} : (∃ c ∈ name, c ≠ '.') → '.' ∉ ext → ModuleName (name ++ '.' :: ext) name
  | whole {name : Str} : (∀ a b, name = a ++ '.' :: b → ∀ c ∈ a, c = '.') → ModuleName name name

/-- A directory has a file for a module, which can be loaded. -/
def OffersPlugin {M : Type} (d : Dir M) (name : Str) (m : M) : Prop :=
  d.isDir = true ∧ (∃ f ∈ d.files, ModuleName f name) ∧ d.find name = .good m

end Nxt.Spec
