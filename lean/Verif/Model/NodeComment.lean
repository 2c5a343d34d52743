import Verif.Model.Mro
/-!
# Model of the comment and the execute path of a node (nxt/stage.py)
-/
namespace Nxt.NodeComment
open Dict NodeData Mro

/-- stage.py:3736-3746 `set_node_comment` on a spec of the layer with the real path: the value and its source.  The composite
layer is not told. -/
def setComment (real : Option Str) (path : Str) (v : Val) (n : Dict Str Val) : Dict Str Val :=
  set (A_COMMENT ++ M_SOURCE) (.src real path) (set A_COMMENT v n)

/-- stage.py:3880-3884 `set_node_exec_in`, likewise. -/
def setExecIn (real : Option Str) (path : Str) (v : Val) (n : Dict Str Val) : Dict Str Val :=
  set (A_EXECUTE_IN ++ M_SOURCE) (.src real path) (set A_EXECUTE_IN v n)

/-- stage.py:3720-3733 `get_node_comment`. -/
def comment (g : Classes) (c : Nat) : Val := g.attr c A_COMMENT

/-- stage.py:3873-3877 `get_node_exec_in`. -/
def execIn (g : Classes) (c : Nat) : Val := g.attr c A_EXECUTE_IN

end Nxt.NodeComment
