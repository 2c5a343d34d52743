import Verif.Model.Children
/-!
# Model of the child cache of a layer (`_cached_children`, nxt/nxt_layer.py)

Node objects are identified with their paths, so the node list and the node table of an entry are lists
of paths.  The dict of names of an entry and the cache of implied children are left out.
-/
namespace Nxt.Tree
open Dict

/-- nxt_layer.py:301-308: what the cache holds for a path. -/
structure Entry where
  nodes : List Str
  paths : List Str
  table : List Str
deriving DecidableEq

abbrev Cache := Dict Str Entry

/-- nxt_layer.py:290-309 and 331-348: the real children of `p` through the cache.  An entry for the world
is never read. -/
def query (same : Str → Str → Bool) (nodes : Nodes) (c : Cache) (p : Str) : Cache × Entry :=
  match if p = Path.WORLD then none else get? p c with
  | some e => (c, e)
  | none =>
    let ps := keys (scan same nodes p)
    (set p ⟨ps, ps, ps⟩ c, ⟨ps, ps, ps⟩)

/-- nxt_layer.py:498-525 `add_child_to_child_cache`. -/
def addChild (c : Cache) (parent child : Str) : Cache :=
  if parent = [] ∨ parent = Path.WORLD then c
  else
    let e := (get? parent c).getD ⟨[], [], []⟩
    set parent ⟨e.nodes ++ [child], e.paths ++ [child], e.table ++ [child]⟩ c

/-- nxt_layer.py:527-556 `remove_child_from_child_cache`. -/
def removeChild (c : Cache) (parent child : Str) : Cache :=
  if parent = Path.WORLD then c
  else match get? parent c with
    | none => c
    | some e => set parent ⟨e.nodes.erase child, e.paths.erase child, e.table.erase child⟩ c

/-- nxt_layer.py:558-566 `clear_node_child_cache`. -/
def clear (c : Cache) (p : Str) : Cache := erase p c

/-- One step on a layer: a query, or an edit of its nodes as in stage.py:562-568 and 969-973. -/
inductive COp where
  | query (p : Str)
  | add (path : Str) (n : LNode)
  | remove (path : Str)
  | clear (p : Str)

/-- The nodes and the cache after a step. -/
def stepC (same : Str → Str → Bool) (st : Nodes × Cache) : COp → Nodes × Cache
  | .query p => (st.1, (query same st.1 st.2 p).1)
  | .add path n => (set path n st.1, addChild st.2 n.parent path)
  | .remove path =>
    match get? path st.1 with
    | none => st
    | some n => (erase path st.1, removeChild (clear st.2 path) n.parent path)
  | .clear p => (st.1, clear st.2 p)

/-- nxt_layer.py:448-451, one round of `descendants` with return type NodeTable. -/
def tableRound (same : Str → Str → Bool) (nodes : Nodes) (c : Cache) (more : List Str) : Cache × List Str :=
  more.foldl (fun ct d => ((query same nodes ct.1 d).1, ct.2 ++ (query same nodes ct.1 d).2.table)) (c, [])

/-- nxt_layer.py:442-453 for return type NodeTable. -/
def tableLoop (same : Str → Str → Bool) (nodes : Nodes) :
    Nat → Cache → List Str → List Str → Option (Cache × List Str)
  | 0, _, _, _ => none
  | fuel + 1, c, desc, more =>
    if more = [] then some (c, desc)
    else
      let r := tableRound same nodes c more
      tableLoop same nodes fuel r.1 (desc ++ r.2) r.2

/-- nxt_layer.py:423-454 `descendants` of a path which is not the world, with return type NodeTable.  When
the path was not cached before, the list which grows is the one kept in the cache. -/
def descTable (same : Str → Str → Bool) (nodes : Nodes) (fuel : Nat) (c : Cache) (p : Str) : Option (Cache × List Str) :=
  let q := query same nodes c p
  match tableLoop same nodes fuel q.1 q.2.table q.2.table with
  | none => none
  | some (c', r) => if (get? p c).isNone then some (set p { q.2 with table := r } c', r) else some (c', r)

/-- nxt_layer.py:423-454 `descendants` of a path which is not the world, with return type Node: no branch
of the loop body fills `_temp`. -/
def descNodes (same : Str → Str → Bool) (nodes : Nodes) (c : Cache) (p : Str) : List Str :=
  (query same nodes c p).2.nodes

end Nxt.Tree
