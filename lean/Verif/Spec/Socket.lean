import Verif.Model.Socket
/-!
# Specification vocabulary for the socket client
-/
namespace Nxt.Spec
open Socket

/-- What the server was told last about waiting, `false` at first. -/
def told : List Event → Bool → Bool
  | [], b => b
  | .sent (.wait b) :: tr, _ => told tr b
  | _ :: tr, b => told tr b

/-- Every piece of work is done while the server has been told to wait. -/
def Covered : List Event → Bool → Prop
  | [], _ => True
  | .sent (.wait b) :: tr, _ => Covered tr b
  | .sent _ :: tr, b => Covered tr b
  | .did _ :: tr, b => b = true ∧ Covered tr b

instance decCovered : (tr : List Event) → (b : Bool) → Decidable (Covered tr b)
  | [], _ => .isTrue trivial
  | .sent (.wait b) :: tr, _ => decCovered tr b
  | .sent .ping :: tr, b => decCovered tr b
  | .sent .cache :: tr, b => decCovered tr b
  | .sent .err :: tr, b => decCovered tr b
  | .sent .shutdown :: tr, b => decCovered tr b
  | .did _ :: tr, b => @instDecidableAnd _ _ _ (decCovered tr b)

/-- Opening and closing the connection, closing with or without a word. -/
inductive Link where
  | opened | closed (notify : Bool)

def linked : List Link → Client → Client
  | [], c => c
  | .opened :: ls, c => linked ls (openServer c)
  | .closed n :: ls, c => linked ls (closeServer n c).1

end Nxt.Spec
