import Verif.Model.Children
import Verif.Model.Dirty
import Verif.Model.Lists
/-!
# Model of the making of proxies: `sort_instances`, `discover_proxies`, `create_instance_node`,
`comp_proxies` (nxt/stage.py)

The state is what these functions read and write of the composite layer.  The node table and the dict of
nodes by path get their entries together (stage.py:563-564, 969-970), so one dict in insertion order stands
for both.  Nodes are identified with their paths.

The children of a path come from an oracle `kids`, given the node paths; `kidPaths` is what a scan gives.
In the code they come from the caches of `children` (see `Verif.Model.ChildCache`), which give the same
children, in another order.  `same` is object identity of two strings (`is`).

Not modelled: the attributes copied to a proxy (name, comment, enabled, source layer), the attribute
source of the instance path, the counts, and the messages.
-/
namespace Nxt.Proxies
open Dict

/-- What is read and written of a composite node. -/
structure PNode where
  inst : Option Str
  order : List Str
  proxy : Bool
deriving DecidableEq

/-- The composite layer. -/
structure St where
  nodes : Dict Str PNode
  dirty : Dict Str (List Str)
deriving DecidableEq

/-- nxt_layer.py:331-355 for return type Path with implied children: a scan of the node paths. -/
def kidPaths (paths : List Str) (p : Str) : List Str := paths.foldl (Tree.impliedStep p) []

/-- The instance path of a node; no value when there is no node or its value is `None`. -/
def instOf (S : St) (p : Str) : Option Str := (get? p S.nodes).bind (·.inst)

/-- `setattr` of the instance path of an existing node. -/
def setInst (S : St) (p v : Str) : St :=
  match get? p S.nodes with
  | none => S
  | some n => { S with nodes := set p { n with inst := some v } S.nodes }

/-- `setattr` of the child order of an existing node. -/
def setOrder (S : St) (p : Str) (o : List Str) : St :=
  match get? p S.nodes with
  | none => S
  | some n => { S with nodes := set p { n with order := o } S.nodes }

/-- The child order of a node. -/
def orderOf (S : St) (p : Str) : List Str := ((get? p S.nodes).map (·.order)).getD []

/-- nxt_layer.py:956-973 `get_node_dirties`, with enough steps to come to its end (C33). -/
def dirties (m : Dict Str (List Str)) (p : Str) : List Str :=
  (Dirty.nodeDirties m ((m.flatMap Prod.snd).length + 2) p).getD []

/-- stage.py:3291-3321 `instance_is_possible`, and the same tests at 3008-3027 in `discover_proxies`. -/
def possible (S : St) (p : Str) : Option Str :=
  match instOf S p with
  | none => none
  | some i =>
    if i = [] then none
    else if i = Path.WORLD then none
    else match Path.expandRelative (some i) p with
      | none => none
      | some r =>
        if Py.startsWith p (r ++ [Path.SEP]) then none
        else if r ∈ dirties S.dirty p then none
        else some r

/-! ### The order of the nodes -/

/-- stage.py:3455-3473 `get_instance_sources`; it stops within as many steps as there are nodes (C35). -/
def trace (S : St) (p : Str) : List Str :=
  (Dirty.instanceSources (keys S.nodes) (instOf S) (S.nodes.length + 1) p []).getD []

/-- stage.py:3420-3430: the nodes sorted by the length of their traces. -/
def sorted (S : St) : List Str := Lists.sortMulti (fun p => (trace S p).length) (keys S.nodes)

/-- stage.py:3434-3451, one item: the list of nodes and the offsets used so far. -/
def deepStep (S : St) (acc : List Str × Dict Str Nat) (p : Str) : List Str × Dict Str Nat :=
  match possible S p with
  | none => acc
  | some r =>
    if r ∈ keys S.nodes then
      let idx := acc.1.idxOf r
      let offset := (get? r acc.2).getD 1
      (Lists.insertAt (acc.1.erase p) (idx + offset) p, set r (offset + 1) acc.2)
    else acc

/-- stage.py:3408-3453 `sort_instances` with `deep_sort`. -/
def deepSort (S : St) : List Str := ((sorted S).foldl (deepStep S) (sorted S, [])).1

/-! ### Discovering -/

/-- stage.py:3044-3056, one child of the instance source: the target is new, or an existing node whose
instance path is set. -/
def childStep (p : Str) (acc : St × List (Str × Str)) (c : Str) : St × List (Str × Str) :=
  let tgt := Path.fromNamespace (Path.toNamespace p ++ [(Path.toNamespace c).getLast?.getD []])
  match get? tgt acc.1.nodes with
  | some n => if n.inst = some [] then acc else (setInst acc.1 tgt c, acc.2)
  | none => (acc.1, acc.2 ++ [(c, tgt)])

/-- stage.py:2990-3058 `discover_proxies`: the sources and the targets of the proxies to make.  All targets
have the same depth, so the sort of line 3057 changes nothing (it is stable, C16). -/
def discover (same : Str → Str → Bool) (kids : List Str → Str → List Str) (S : St) (p : Str) :
    St × List (Str × Str) :=
  match possible S p with
  | none => (S, [])
  | some r =>
    let S := setInst S p r
    let S := { S with dirty := Dirty.extend same S.dirty r p }
    let S := if r ∈ keys S.nodes then setOrder S p (Lists.listMerger (orderOf S p) (orderOf S r)) else S
    (kids (keys S.nodes) r).foldl (childStep p) (S, [])

/-! ### Creating -/

/-- stage.py:2454-2469: the source is only implied, and its name is not among the real children of the
instance source of its parent. -/
def isImplied (S : St) (src : Str) : Bool :=
  if src ∈ keys S.nodes then false
  else match instOf S (Path.parentPath src) with
    | none => true
    | some i => !(keys S.nodes).any (fun q => Path.parentPath q = i ∧ Path.nodeName q = Path.nodeName src)

/-- stage.py:544-576 `add_node_to_comp_layer` with a proxy. -/
def addProxy (S : St) (tgt src : Str) : St :=
  let S := { S with nodes := set tgt ⟨some src, [], true⟩ S.nodes }
  let co := orderOf S (Path.parentPath tgt)
  if Path.nodeName tgt ∈ co then S else setOrder S (Path.parentPath tgt) (Lists.listMerger co [Path.nodeName tgt])

/-- stage.py:2463-2464 with nxt_node.py:147-156: for a source which is missing a spec node is made in the
composite layer, only to be read; but `create_spec_node` puts its name into the child order of its parent there,
unless that is a proxy. -/
def standIn (S : St) (src : Str) : St :=
  if src ∈ keys S.nodes then S
  else match get? (Path.parentPath src) S.nodes with
    | none => S
    | some n =>
      if n.proxy ∨ Path.nodeName src ∈ n.order then S
      else setOrder S (Path.parentPath src) (Lists.listMerger n.order [Path.nodeName src])

/-- stage.py:2438-2512 `create_instance_node` and 3083-3089: the state, and the implied proxies so far. -/
def create (same : Str → Str → Bool) (acc : St × List Str) (st : Str × Str) : St × List Str :=
  let imp := if isImplied acc.1 st.1 then acc.2 ++ [st.2] else acc.2
  let S := standIn acc.1 st.1
  let S := if st.2 ∈ keys S.nodes then setInst S st.2 st.1 else addProxy S st.2 st.1
  ({ S with dirty := Dirty.extend same S.dirty st.1 st.2 }, imp)

/-! ### The loop -/

/-- stage.py:3076-3082: what one round of the loop finds. -/
def discoverAll (same : Str → Str → Bool) (kids : List Str → Str → List Str) (S : St) : St × List (Str × Str) :=
  (deepSort S).foldl
    (fun acc p => ((discover same kids acc.1 p).1, acc.2 ++ (discover same kids acc.1 p).2)) (S, [])

/-- stage.py:3071-3092, the loop, at most `fuel` rounds.  The node count grows by the number of proxies to
make, so the loop ends with the first round which finds none. -/
def proxyLoop (same : Str → Str → Bool) (kids : List Str → Str → List Str) :
    Nat → St × List Str → Option (St × List Str)
  | 0, _ => none
  | fuel + 1, acc =>
    let r := discoverAll same kids acc.1
    if r.2 = [] then some (r.1, acc.2)
    else proxyLoop same kids fuel (r.2.foldl (create same) (r.1, acc.2))

/-- stage.py:3060-3101 `comp_proxies`: the loop, then the implied proxies are taken out. -/
def compProxies (same : Str → Str → Bool) (kids : List Str → Str → List Str) (fuel : Nat) (S : St) : Option St :=
  (proxyLoop same kids fuel (S, [])).map
    (fun r => r.2.foldl (fun S p => { S with nodes := erase p S.nodes }) r.1)

end Nxt.Proxies
