import Verif.Model.Cache
import Verif.Spec.Files
/-!
# Specification for the cache layer
-/
namespace Nxt.Spec
open Dict Rt Cache

/-- A node which may be put into a cache layer: its tables are dictionaries, its child order is a list of names or
missing. -/
def Frameable (n : RtNode) : Prop :=
  Ok n.own ∧ Ok n.inherited ∧
    (("_child_order".toList ∉ keys n.own ∧ "_child_order".toList ∉ keys n.inherited) ∨ ∃ order : List Str, attr n "_child_order".toList = .list (order.map Val.str))

/-- How nodes and the code texts they ran get into a cache layer: a node with a cached code text is added before it runs,
then the code sets user attributes of nodes. -/
inductive Ran (builtins : List Str) : Dict Str RtNode → Dict Str Str → Prop
  | start : Ran builtins [] []
  | add {nodes nodes' : Dict Str RtNode} {codes : Dict Str Str} {p s : Str} {n : RtNode} : Ran builtins nodes codes →
      Frameable n → attr n "_cached_code".toList = .str s → addNode p n nodes = some nodes' →
      Ran builtins nodes' (set p s codes)
  | assign {nodes : Dict Str RtNode} {codes : Dict Str Str} {p k : Str} {v : Val} {n : RtNode} : Ran builtins nodes codes →
      get? p nodes = some n → UserName builtins k →
      Ran builtins (set p { n with own := set k v n.own } nodes) codes

end Nxt.Spec
