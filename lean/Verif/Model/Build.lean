import Verif.Model.Inherit
import Verif.Model.Proxies
/-!
# Model of the composing part of `build_stage` from the layers to the composed nodes (nxt/stage.py:2655-2669)

`comp_pre_proxies`, `comp_proxies` and `post_proxy_comp` one after the other.  `Verif.Model.Comp`,
`Verif.Model.Proxies` and `Verif.Model.Inherit` model each by what it needs; here they work on one composite
layer.  While proxies are made the state is kept twice: `lite` is what the functions of `Verif.Model.Proxies`
read and write, and `tab` has the attribute tables of the nodes, which get every `setattr` those functions make.
What each step decides is read from `lite`.

Simplifications: an instance path which is not a text counts as none; a child order which is not a list of names
counts as empty; `lookup_layer` finds the layer whose path it is given.  The layers given are those `build_stage`
composes, strong to weak; muting, the positions and the counts are not here.
-/
namespace Nxt.Build
open Dict NodeData

/-- A value which is a text. -/
def textOf : Val → Option Str
  | .str s => some s
  | _ => none

/-- The composite layer while proxies are made. -/
structure BSt where
  lite : Proxies.St
  tab : Dict Str Comp.CompNode

/-- What the making of proxies reads of a composite node: nxt_node.py `getattr` of the instance path, the child
order and the proxy flag (stage.py:3005, 3034, nxt_node.py:151-152). -/
def liteNode (n : Comp.CompNode) : Proxies.PNode :=
  ⟨textOf (n.attr A_INSTANCE), (names (n.attr A_CHILD_ORDER)).getD [], (n.attr A_PROXY).truthy⟩

/-- stage.py:2656: the composite layer after `comp_pre_proxies`; its dirty map is empty. -/
def start (layers : List Comp.LayerNodes) : BSt :=
  ⟨⟨(Comp.compPre layers).map (fun e => (e.1, liteNode e.2)), []⟩, Comp.compPre layers⟩

/-- `setattr` on the node at a path. -/
def edit (p : Str) (f : Dict Str Val → Dict Str Val) (tab : Dict Str Comp.CompNode) : Dict Str Comp.CompNode :=
  match get? p tab with
  | none => tab
  | some n => set p { n with own := f n.own } tab

/-- `setattr` of the instance path (stage.py:3028, 3053). -/
def setInst (B : BSt) (p v : Str) : BSt :=
  ⟨Proxies.setInst B.lite p v, edit p (set A_INSTANCE (.str v)) B.tab⟩

/-- `setattr` of the child order (stage.py:3037, 575, nxt_node.py:156). -/
def setOrder (B : BSt) (p : Str) (o : List Str) : BSt :=
  ⟨Proxies.setOrder B.lite p o, edit p (set A_CHILD_ORDER (.list (o.map Val.str))) B.tab⟩

/-- stage.py:3044-3056, one child of the instance source. -/
def childStep (p : Str) (acc : BSt × List (Str × Str)) (c : Str) : BSt × List (Str × Str) :=
  let tgt := Path.fromNamespace (Path.toNamespace p ++ [(Path.toNamespace c).getLast?.getD []])
  match get? tgt acc.1.lite.nodes with
  | some n => if n.inst = some [] then acc else (setInst acc.1 tgt c, acc.2)
  | none => (acc.1, acc.2 ++ [(c, tgt)])

/-- stage.py:2990-3058 `discover_proxies`. -/
def discover (same : Str → Str → Bool) (kids : List Str → Str → List Str) (B : BSt) (p : Str) :
    BSt × List (Str × Str) :=
  match Proxies.possible B.lite p with
  | none => (B, [])
  | some r =>
    let B := setInst B p r
    let B : BSt := { B with lite := { B.lite with dirty := Dirty.extend same B.lite.dirty r p } }
    let B := if r ∈ keys B.lite.nodes then
        setOrder B p (Lists.listMerger (Proxies.orderOf B.lite p) (Proxies.orderOf B.lite r)) else B
    (kids (keys B.lite.nodes) r).foldl (childStep p) (B, [])

/-- stage.py:2453-2464: the source of a proxy; for a missing one a spec node made in the composite layer, whose
path is `real`. -/
def sourceNode (real : Option Str) (B : BSt) (src : Str) : Comp.CompNode :=
  match get? src B.tab with
  | some n => n
  | none =>
    { own := []
      bases := [(createSpecNode [("name".toList, .str (Path.nodeName src))] real (Path.parentPath src) false).getD []] }

/-- The entry in the child order which line 2463 makes (see `Proxies.standIn`). -/
def standIn (B : BSt) (src : Str) : BSt :=
  if src ∈ keys B.lite.nodes then B
  else match get? (Path.parentPath src) B.lite.nodes with
    | none => B
    | some n =>
      if n.proxy ∨ Path.nodeName src ∈ n.order then B
      else setOrder B (Path.parentPath src) (Lists.listMerger n.order [Path.nodeName src])

/-- stage.py:2476-2485 `i_dat`: the data of a proxy, from the attributes of its source. -/
def proxyData (s : Comp.CompNode) (parent : Str) : Dict Str Val :=
  [("name".toList, s.attr A_NAME), ("comment".toList, s.attr A_COMMENT), ("enabled".toList, s.attr A_ENABLED),
   ("source_layer".toList, s.attr A_SOURCE_LAYER), ("parent_path".toList, .str parent)]

/-- stage.py:2470-2471, 2486-2488: the spec node of a proxy. -/
def proxySpec (s : Comp.CompNode) (parent : Str) : Dict Str Val :=
  (createSpecNode (proxyData s parent) (textOf (s.attr A_SOURCE_LAYER)) parent true).getD []

/-- stage.py:2490-2502: what is set on the proxy itself; `forced` is `force_source_layer`. -/
def proxyOwn (layer : Val) (src : Str) (forced : Bool) : Dict Str Val :=
  (if forced then [(A_SOURCE_LAYER, layer)] else []) ++
    [(A_INSTANCE, .str src), (A_INSTANCE ++ M_SOURCE, .src (textOf layer) src)]

/-- stage.py:2475-2502 with `add_node_to_comp_layer`, 544-576. -/
def addProxy (real : Option Str) (B : BSt) (tgt src : Str) (forced : Bool) : BSt :=
  let s := sourceNode real B src
  let layer := match get? (Path.parentPath tgt) B.tab with | some n => n.attr A_SOURCE_LAYER | none => .none
  let B : BSt := ⟨{ B.lite with nodes := set tgt ⟨some src, [], true⟩ B.lite.nodes },
    set tgt ⟨proxyOwn layer src forced, [proxySpec s (Path.parentPath tgt)]⟩ B.tab⟩
  let co := Proxies.orderOf B.lite (Path.parentPath tgt)
  if Path.nodeName tgt ∈ co then B else setOrder B (Path.parentPath tgt) (Lists.listMerger co [Path.nodeName tgt])

/-- stage.py:2503-2508: the target is there already. -/
def takeOver (real : Option Str) (B : BSt) (tgt src : Str) : BSt :=
  let s := sourceNode real B src
  let B := setInst B tgt src
  { B with tab := edit tgt (set (A_INSTANCE ++ M_SOURCE) (.src (textOf (s.attr A_SOURCE_LAYER)) src)) B.tab }

/-- stage.py:2438-2512 `create_instance_node` and 3083-3089. -/
def create (same : Str → Str → Bool) (real : Option Str) (acc : BSt × List Str) (st : Str × Str) : BSt × List Str :=
  let implied := Proxies.isImplied acc.1.lite st.1
  let forced := decide (st.1 ∉ keys acc.1.lite.nodes) && !implied
  let imp := if implied then acc.2 ++ [st.2] else acc.2
  let B := standIn acc.1 st.1
  let B := if st.2 ∈ keys B.lite.nodes then takeOver real B st.2 st.1 else addProxy real B st.2 st.1 forced
  ({ B with lite := { B.lite with dirty := Dirty.extend same B.lite.dirty st.1 st.2 } }, imp)

/-- stage.py:3076-3082. -/
def discoverAll (same : Str → Str → Bool) (kids : List Str → Str → List Str) (B : BSt) : BSt × List (Str × Str) :=
  (Proxies.deepSort B.lite).foldl
    (fun acc p => ((discover same kids acc.1 p).1, acc.2 ++ (discover same kids acc.1 p).2)) (B, [])

/-- stage.py:3071-3092, the loop. -/
def proxyLoop (same : Str → Str → Bool) (kids : List Str → Str → List Str) (real : Option Str) :
    Nat → BSt × List Str → Option (BSt × List Str)
  | 0, _ => none
  | fuel + 1, acc =>
    let r := discoverAll same kids acc.1
    if r.2 = [] then some (r.1, acc.2)
    else proxyLoop same kids real fuel (r.2.foldl (create same real) (r.1, acc.2))

/-- stage.py:3060-3101 `comp_proxies`. -/
def compProxies (same : Str → Str → Bool) (kids : List Str → Str → List Str) (real : Option Str) (fuel : Nat) (B : BSt) :
    Option BSt :=
  (proxyLoop same kids real fuel (B, [])).map
    (fun r => r.2.foldl (fun B p => ⟨{ B.lite with nodes := erase p B.lite.nodes }, erase p B.tab⟩) r.1)

/-- The classes of the nodes before `post_proxy_comp`. -/
def classes (B : BSt) : Mro.Classes × Dict Str Nat := Inherit.build (B.tab.map (fun e => (e.1, e.2.own, e.2.bases)))

/-- stage.py:2656-2661: the three passes.  `none` when making proxies does not end within `fuel` rounds or when
`post_proxy_comp` raises (stage.py:2662-2669). -/
def compose (same : Str → Str → Bool) (kids : List Str → Str → List Str) (real : Option Str) (fuel : Nat)
    (layers : List Comp.LayerNodes) : Option (Mro.Classes × Dict Str Nat) :=
  (compProxies same kids real fuel (start layers)).bind (fun B =>
    (Inherit.postProxy (classes B).2 (Inherit.sortInstances (classes B).2 (classes B).2 (classes B).1) (classes B).1).map
      (fun g => (g, (classes B).2)))

end Nxt.Build
