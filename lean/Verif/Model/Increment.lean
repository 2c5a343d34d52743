import Verif.Model.Inherit
import Verif.Model.Targeted
/-!
# Model of `add_node` on a composed stage: one spec added without composing anew (nxt/stage.py)

The composite layer is the classes of `Verif.Model.Inherit` with the dict of composite nodes by path.  Adding a spec
makes its class and then either a new composite node or a new base of the existing one (`Verif.Model.Targeted`); then
the parent becomes a base and the inherited attributes are brought up to date.

Modelled for graphs in which no node has an instance path: the dirty map is empty, there are no proxies, the proxy map
of `targeted_comp_proxies` has the node itself and nothing else, with no instance node.  Not modelled: the child cache,
the tables of the target layer (see `Verif.Model.Edit`), the children and the child order given in the data (each child is
one more `add`), names made unique (C18), messages.
-/
namespace Nxt.Increment
open Dict NodeData Mro

/-- The composite layer: classes, composite nodes by path, and for each class the index of its source layer in the
stage (for specs) and its parent path and name, which these functions do not change. -/
structure St where
  g : Classes
  nodes : Dict Str Nat
  layer : Nat → Option Nat
  addr : Nat → Str × Str

/-- `base.__name__ == CompNode.__name__`. -/
def isComp (S : St) (b : Nat) : Bool := (S.nodes.map Prod.snd).contains b

/-- stage.py:2791-2793: the index of the source layer; the one of a composite node comes from its first base. -/
def layerIdx (S : St) (b : Nat) : Option Nat := if isComp S b then (S.g.bases b).head?.bind S.layer else S.layer b

/-- What `targeted_comp_pre_proxies` and `update_inherited_attrs` read of the bases of the composite node `c`. -/
def env (is : Str → Str → Bool) (S : St) (c : Nat) : Targeted.Env where
  isComp := isComp S
  proxy := fun _ => false
  layer := layerIdx S
  arc := fun b => Targeted.getArc is false (S.addr c).1 (S.addr c).2 [] (S.addr b).1 (S.addr b).2
  table := fun b => ALL.map (fun a => (a, S.g.attr b a))

/-- `setattr` of the whole own table of a class. -/
def setOwn (g : Classes) (c : Nat) (own : Dict Str Val) : Classes :=
  { g with own := fun d => if d = c then own else g.own d }

/-- stage.py:566-575: the parent lists the new node as a child. -/
def listChild (S : St) (par name : Str) : St :=
  match get? par S.nodes with
  | none => S
  | some b =>
    let co := Comp.childOrder [(A_CHILD_ORDER, S.g.attr b A_CHILD_ORDER)]
    if name ∈ co then S
    else { S with g := Inherit.setAttr S.g b A_CHILD_ORDER (.list ((Lists.listMerger co [name]).map Val.str)) }

/-- stage.py:2775-2777 and 544-576: a new composite node with the spec as its only base, and both classes. -/
def newComp (S : St) (i : Nat) (par name : Str) (table : Dict Str Val) : St :=
  let c := S.g.size
  listChild
    { g := Inherit.addNode S.g [] [table]
      nodes := set (Path.joinNodePath par name) c S.nodes
      layer := fun d => if d = c + 1 then some i else S.layer d
      addr := fun d => if d = c ∨ d = c + 1 then (par, name) else S.addr d }
    par name

/-- nxt_node.py:165-171: the class of a new spec. -/
def newSpec (S : St) (i : Nat) (par name : Str) (table : Dict Str Val) : St :=
  let s := S.g.size
  { S with
    g := { size := s + 1
           bases := fun d => if d = s then [0] else S.g.bases d
           own := fun d => if d = s then table else S.g.own d }
    layer := fun d => if d = s then some i else S.layer d
    addr := fun d => if d = s then (par, name) else S.addr d }

/-- stage.py:2778-2851: the spec `s` becomes a base of the existing composite node `c`. -/
def intoComp (is : Str → Str → Bool) (S : St) (i s c : Nat) (path : Str) : Option St :=
  (Targeted.insertSpec (env is S c) path i s ⟨S.g.own c, S.g.bases c⟩).bind (fun n =>
    (S.g.setBases c n.bases).map (fun g => { S with g := setOwn g c n.own }))

/-- stage.py:2867-2876: the parent or the nearest node above, as `post_proxy_comp` finds it; no node is at the empty
path. -/
def parentNode (S : St) (par : Str) : Option Nat :=
  if par = [] then none else get? (Inherit.parentBasePath S.nodes par) S.nodes

/-- stage.py:3324-3362 `update_inherited_attrs` of the node `c`. -/
def updateNode (is : Str → Str → Bool) (S : St) (c : Nat) : St :=
  { S with g := setOwn S.g c (Targeted.update (env is S c) false [.parent, .inst] ⟨S.g.own c, S.g.bases c⟩).own }

/-- stage.py:3206-3226 for the parent arc: the parent becomes a base; `none` is a `TypeError`. -/
def addParent (S : St) (c : Nat) (par : Str) : Option St :=
  match parentNode S par with
  | none => some S
  | some b => (S.g.safeAddBase c b).map (fun g => { S with g := g })

/-- stage.py:3186-3233 `targeted_comp_post_proxies` for the node alone. -/
def finish (is : Str → Str → Bool) (S : St) (c : Nat) (par : Str) : Option St :=
  (addParent S c par).map (updateNode is · c)

/-- stage.py:578-718 `add_node` with a composite layer: the spec `table` of the layer with index `i`. -/
def add (is : Str → Str → Bool) (S : St) (i : Nat) (par name : Str) (table : Dict Str Val) : Option St :=
  let path := Path.joinNodePath par name
  match get? path S.nodes with
  | none => finish is (newComp S i par name table) S.g.size par
  | some c => (intoComp is (newSpec S i par name table) i S.g.size c path).bind (finish is · c par)

/-- One call of `add_node`: layer index, parent path, name, attributes of the spec. -/
structure Call where
  layer : Nat
  par : Str
  name : Str
  table : Dict Str Val

/-- Several calls of `add_node`, one after the other. -/
def adds (is : Str → Str → Bool) (S : St) (calls : List Call) : Option St :=
  calls.foldlM (fun S c => add is S c.layer c.par c.name c.table) S

end Nxt.Increment
