import Verif.Model.Dict
/-!
# Python values held by attributes and save data
-/
namespace Nxt

/-- A Python value.  `other` stands for any further object, of which only its truth value and
whether `json.dumps` accepts it are seen.  `src` is the tuple `(real_path, node_path)` kept in the
`…_source__nxt` attributes. -/
inductive Val where
  | none
  | bool (b : Bool)
  | num (n : Int)
  | str (s : Str)
  | list (l : List Val)
  | dict (d : List (Str × Val))
  | src (layer : Option Str) (path : Str)
  | other (id : Nat) (truthy serialisable : Bool)

namespace Val

/-- Python `bool(v)`. -/
def truthy : Val → Bool
  | .none => false
  | .bool b => b
  | .num n => n ≠ 0
  | .str s => s ≠ []
  | .list l => !l.isEmpty
  | .dict d => !d.isEmpty
  | .src _ _ => true
  | .other _ t _ => t

/-- nxt_node.py:208-209 `has_opinion`: `attr_value not in (None, [])`. -/
def hasOpinion : Val → Bool
  | .none => false
  | .list [] => false
  | _ => true

/-- `v in ((), [], {})`, nxt_layer.py:886. -/
def isEmptyContainer : Val → Bool
  | .list [] => true
  | .dict [] => true
  | _ => false

mutual
/-- Whether `json.dumps(v)` succeeds. -/
def serialisable : Val → Bool
  | .list l => serialisableList l
  | .dict d => serialisableDict d
  | .other _ _ s => s
  | _ => true
def serialisableList : List Val → Bool
  | [] => true
  | v :: l => serialisable v && serialisableList l
def serialisableDict : List (Str × Val) → Bool
  | [] => true
  | (_, v) :: d => serialisable v && serialisableDict d
end

end Val
end Nxt
