import Verif.Model.Runtime
/-!
# Specification of running a node
-/
namespace Nxt.Spec
open Dict Rt

/-- `needle` occurs in `hay`. -/
def Occurs (needle hay : Str) : Prop := ∃ a b, hay = a ++ needle ++ b

/-- A line which is not a comment or a string from its first character on. -/
def Counts (l : Str) : Prop := l.head? ≠ some '#' ∧ l.head? ≠ some '\'' ∧ l.head? ≠ some '"'

/-- A Python statement which declares global names: `global a, b`. -/
def Declares (l k : Str) : Prop :=
  ∃ indent names, (∀ c ∈ indent, c = ' ' ∨ c = '\t') ∧ k ∈ names ∧
    l = indent ++ "global ".toList ++ Py.join ", ".toList names

/-- The names nxt keeps for itself. -/
def reservedNames : List Str :=
  ["_code".toList, "_execute_in".toList, "_comment".toList, "_start_point".toList, "_enabled".toList,
   "_instance".toList, "_child_order".toList, "_name".toList, "_source_layer".toList, "_proxy".toList,
   "_parent_path".toList, "_node_path".toList, "_cached_code".toList]

/-- An attribute of the user's on the node or on one of its bases. -/
def UserAttr (builtins : List Str) (n : RtNode) (a : Str) : Prop :=
  (a ∈ keys n.own ∨ a ∈ keys n.inherited) ∧ a ∉ builtins ∧ a ∉ reservedNames ∧ ¬ ∃ b, a = b ++ "__nxt".toList

open Classical in
/-- What `run` leaves on the node before any value is pushed back. -/
noncomputable def bookkeeping (builtins : List Str) (n : RtNode) (layer : Option Str) (path code k : Str) : Option Val :=
  if ∃ a, UserAttr builtins n a ∧ k = a ++ "_source__nxt".toList then some (.src layer path)
  else if k = "_cached_code".toList then some (.str code)
  else get? k n.own

end Nxt.Spec
