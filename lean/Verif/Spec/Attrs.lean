import Verif.Model.Value
import Verif.Model.Names
/-!
# Specification of user attributes: a name with a value, a comment, a type and a source
-/
namespace Nxt.Spec
open Dict

/-- What is kept for an attribute. -/
inductive Field where
  | value | comment | type | source
deriving DecidableEq

/-- Where it is kept: the name of the attribute with this behind it. -/
def Field.suffix : Field → Str
  | .value => []
  | .comment => "_comment__nxt".toList
  | .type => "_type__nxt".toList
  | .source => "_source__nxt".toList

/-- The key it has in attribute data. -/
def Field.key : Field → Str
  | .value => "value".toList
  | .comment => "comment".toList
  | .type => "type".toList
  | .source => "source".toList

/-- What a node keeps for an attribute. -/
def look (n : Dict Str Val) (a : Str) (f : Field) : Option Val := get? (a ++ f.suffix) n

/-- The names an attribute may have: they do not look like those of comments, types and sources. -/
def AttrName (a : Str) : Prop := ∀ s, a ≠ s ++ "__nxt".toList

/-- All attributes but `a` are as before. -/
def OthersKept (a : Str) (n n' : Dict Str Val) : Prop := ∀ b f, AttrName b → b ≠ a → look n' b f = look n b f

/-- An empty text is no value. -/
def orNone : Val → Val
  | .str [] => .none
  | v => v

/-- The same attributes with the same data. -/
def SameAttrs (n n' : Dict Str Val) : Prop := ∀ b f, AttrName b → look n' b f = look n b f

/-- A name which needs no change. -/
def Legal (cc : Names.CharClass) (a : Str) : Prop :=
  ∃ x xs, a = x :: xs ∧ cc.isDigit x = false ∧ ∀ y ∈ a, cc.isWord y = true

end Nxt.Spec
