import Verif.Model.Value
/-!
# Specification: the entries of a save file and the names of node attributes, spelled out
-/
namespace Nxt.Spec
open Dict

/-- The order of the entries of a save file. -/
def fileOrder : List Str :=
  ["version", "alias", "color", "mute", "solo", "references", "comp_overrides", "meta_data", "nodes",
   "real_path"].map String.toList

/-- The order of the entries of a node; attributes have a place only when there are some. -/
def nodeOrder (data : Dict Str Val) : List Str :=
  if (get? "attrs".toList data).any Val.truthy then
    ["start_point", "instance", "execute_in", "child_order", "enabled", "comment", "attrs", "code"].map
      String.toList
  else
    ["start_point", "instance", "execute_in", "child_order", "enabled", "comment", "code"].map String.toList

/-- The tables in the meta data of a layer. -/
def layerTables : List Str := ["aliases", "colors", "locks", "positions", "collapse"].map String.toList

/-- The internal attributes which carry an opinion. -/
def opinionAttrs : List Str :=
  ["_code", "_execute_in", "_comment", "_start_point", "_enabled", "_instance"].map String.toList

/-- All internal names of a node. -/
def internalNames : List Str :=
  ["_code", "_execute_in", "_comment", "_start_point", "_enabled", "_instance", "_child_order", "_name",
   "_source_layer", "_proxy", "_parent_path", "_node_path", "_cached_code"].map String.toList

/-- A name of a user attribute: not one of Python's, not internal, and without a reserved ending. -/
def UserName (builtins : List Str) (k : Str) : Prop :=
  k ∉ builtins ∧ k ∉ internalNames ∧ ∀ m ∈ ["comment", "type", "source"].map String.toList,
    ∀ pre, k ≠ pre ++ ("_".toList ++ m ++ "__nxt".toList)

end Nxt.Spec
