import Verif.Lemmas.ProxyMerged
import Verif.Props.ExecReopen
/-!
# What the attribute tables say of names, child orders and roots to execute after
-/
namespace Nxt.Build
open Dict NodeData Spec Path

variable {layers : List Comp.LayerNodes} {N : List Str → Option (Option Str)} {O : List Str → List Str}

theorem proxySpec_more (s : Comp.CompNode) (parent name : Str) (h : s.attr A_NAME = .str name) (hp : parent ≠ []) :
    get? A_NAME (proxySpec s parent) = some (.str name) ∧ get? A_CHILD_ORDER (proxySpec s parent) = some (.list []) ∧
    get? A_EXECUTE_IN (proxySpec s parent) = some .none ∧ get? A_START (proxySpec s parent) = some (internalDefault A_START) := by
  rw [proxySpec_eq s parent name h hp]
  have hload : ∀ k, get? k (loadInternals (proxyData s parent) []) =
      if k ∈ ALL then some (internalValue (proxyData s parent) k) else none := by
    intro k
    unfold loadInternals
    rw [get?_foldl_set]
    by_cases h : k ∈ ALL
    · rw [if_pos h, if_pos h]
    · rw [if_neg h, if_neg h]; rfl
  refine ⟨?_, ?_, ?_, ?_⟩
  · rw [get?_trackedSources _ _ _ (by decide +kernel)]
    simp only [get?_set]
    rw [if_neg (by decide +kernel), if_neg (by decide +kernel), if_neg (by decide +kernel), if_neg (by decide +kernel), if_pos trivial]
  · rw [get?_trackedSources _ _ _ (by decide +kernel)]
    simp only [get?_set]
    rw [if_neg (by decide +kernel), if_neg (by decide +kernel), if_pos trivial]
  · rw [get?_trackedSources _ _ _ (by decide +kernel)]
    simp only [get?_set]
    rw [if_neg (by decide +kernel), if_neg (by decide +kernel), if_neg (by decide +kernel), if_neg (by decide +kernel),
      if_neg (by decide +kernel), hload, if_pos (by decide +kernel)]
    rfl
  · rw [get?_trackedSources _ _ _ (by decide +kernel)]
    simp only [get?_set]
    rw [if_neg (by decide +kernel), if_neg (by decide +kernel), if_neg (by decide +kernel), if_neg (by decide +kernel),
      if_neg (by decide +kernel), hload, if_pos (by decide +kernel)]
    rfl

/-- What the tables of a node say of these. -/
structure ShownNode (layers : List Comp.LayerNodes) (B : BSt) (p : Str) (n : Comp.CompNode) : Prop where
  order : firstTable A_CHILD_ORDER (n.own :: n.bases) = some (.list ((Proxies.orderOf B.lite p).map Val.str))
  name : firstTable A_NAME (n.own :: n.bases) = some (.str (nodeName p))
  exec : stack layers p = [] → firstTable A_EXECUTE_IN (n.own :: n.bases) = some .none
  start : stack layers p = [] → firstTable A_START (n.own :: n.bases) = some (internalDefault A_START)

def Shown (layers : List Comp.LayerNodes) (B : BSt) : Prop := ∀ p n, get? p B.tab = some n → ShownNode layers B p n

theorem firstTable_setOwn (n : Comp.CompNode) (k : Str) (v : Val) (k' : Str) :
    firstTable k' (set k v n.own :: n.bases) = if k' = k then some v else firstTable k' (n.own :: n.bases) := by
  unfold firstTable
  rw [List.findSome?_cons, List.findSome?_cons, get?_set]
  by_cases h : k' = k
  · rw [if_pos h, if_pos h]
  · rw [if_neg h, if_neg h]

theorem shown_edit {B : BSt} (h : Shown layers B) (p k : Str) (v : Val) (hk : k ∈ EDITED) (S : Proxies.St)
    (h1 : ∀ q, q ≠ p → Proxies.orderOf S q = Proxies.orderOf B.lite q)
    (h2 : p ∈ keys B.tab → k = A_CHILD_ORDER → v = .list ((Proxies.orderOf S p).map Val.str))
    (h3 : k ≠ A_CHILD_ORDER → Proxies.orderOf S p = Proxies.orderOf B.lite p) : Shown layers ⟨S, edit p (set k v) B.tab⟩ := by
  have hne : ∀ k ∈ EDITED, A_NAME ≠ k ∧ A_EXECUTE_IN ≠ k ∧ A_START ≠ k := by decide +kernel
  obtain ⟨k1, k2, k3⟩ := hne k hk
  intro q n hn
  simp only [get?_edit] at hn
  by_cases hq : q = p
  · subst hq
    rw [if_pos rfl] at hn
    cases hg : get? q B.tab with
    | none => rw [hg] at hn; cases hn
    | some m =>
      rw [hg] at hn
      have hmem : q ∈ keys B.tab := get?_isSome.1 (by rw [hg]; rfl)
      have ho := h q m hg
      have hn := Option.some.inj hn
      subst hn
      refine ⟨?_, ?_, fun hs => ?_, fun hs => ?_⟩
      · simp only [firstTable_setOwn]
        by_cases hc : A_CHILD_ORDER = k
        · rw [if_pos hc, h2 hmem hc.symm]
        · rw [if_neg hc, h3 (fun e => hc e.symm)]; exact ho.order
      · simp only [firstTable_setOwn]; rw [if_neg k1]; exact ho.name
      · simp only [firstTable_setOwn]; rw [if_neg k2]; exact ho.exec hs
      · simp only [firstTable_setOwn]; rw [if_neg k3]; exact ho.start hs
  · rw [if_neg hq] at hn
    have ho := h q n hn
    exact ⟨by rw [h1 q hq]; exact ho.order, ho.name, ho.exec, ho.start⟩

theorem shown_congr {B : BSt} (h : Shown layers B) (S : Proxies.St) (h1 : ∀ q, Proxies.orderOf S q = Proxies.orderOf B.lite q) :
    Shown layers { B with lite := S } := by
  intro p n hn
  have ho := h p n hn
  exact ⟨by rw [h1]; exact ho.order, ho.name, ho.exec, ho.start⟩

theorem shown_setInst {B : BSt} (h : Shown layers B) (p v : Str) : Shown layers (setInst B p v) :=
  shown_edit h p A_INSTANCE (.str v) (by decide +kernel) _ (fun q _ => Proxies.orderOf_setInst _ _ _ _)
    (fun _ hne => absurd hne (by decide +kernel)) (fun _ => Proxies.orderOf_setInst _ _ _ _)

theorem shown_setOrder {B : BSt} (h : Shown layers B) (hk : keys B.tab = keys B.lite.nodes) (p : Str) (o : List Str) : Shown layers (setOrder B p o) := by
  refine shown_edit h p A_CHILD_ORDER _ (by decide +kernel) _ (fun q hq => ?_) (fun hp _ => ?_) (fun hne => absurd rfl hne)
  · rw [Proxies.orderOf_setOrder, if_neg (fun hh => hq hh.1)]
  · rw [Proxies.orderOf_setOrder, if_pos ⟨rfl, hk ▸ hp⟩]

theorem shown_childFold (p : Str) (l : List Str) : ∀ acc : BSt × List (Str × Str), Shown layers acc.1 →
    Shown layers (l.foldl (childStep p) acc).1 := by
  induction l with
  | nil => intro acc h; exact h
  | cons c l ih =>
    intro acc h
    rw [List.foldl_cons]
    apply ih
    unfold childStep
    simp only
    split
    · split
      · exact h
      · exact shown_setInst h _ _
    · exact h

theorem shown_discover (same : Str → Str → Bool) (kids : List Str → Str → List Str) {B : BSt} (h : Shown layers B) (hk : Kept N layers B)
    (p : Str) : Shown layers (discover same kids B p).1 := by
  unfold discover
  cases Proxies.possible B.lite p with
  | none => exact h
  | some r =>
    simp only
    apply shown_childFold
    have h2 := shown_congr (shown_setInst h p r)
      { (setInst B p r).lite with dirty := Dirty.extend same (setInst B p r).lite.dirty r p } (fun _ => rfl)
    have k2 := kept_congr (kept_setInst hk p r)
      { (setInst B p r).lite with dirty := Dirty.extend same (setInst B p r).lite.dirty r p } rfl (fun _ => rfl)
    split
    · exact shown_setOrder h2 k2.keys _ _
    · exact h2

theorem shown_discoverAll (same : Str → Str → Bool) (kids : List Str → Str → List Str) {B : BSt} (h : Shown layers B) (hk : Kept N layers B) :
    Shown layers (discoverAll same kids B).1 := by
  unfold discoverAll
  have key : ∀ (l : List Str) (acc : BSt × List (Str × Str)), Shown layers acc.1 → Kept N layers acc.1 →
      Shown layers (l.foldl (fun acc p => ((discover same kids acc.1 p).1, acc.2 ++ (discover same kids acc.1 p).2)) acc).1 := by
    intro l
    induction l with
    | nil => intro acc h _; exact h
    | cons p l ih =>
      intro acc h hk
      rw [List.foldl_cons]
      exact ih _ (shown_discover same kids h hk p) (kept_discover same kids hk p)
  exact key _ _ h hk

theorem shown_addProxy {B : BSt} (h : Shown layers B) (hk : Kept N layers B) (real : Option Str) {m a : List Str} {x : Str}
    (forced : Bool) (hn : Names (m ++ [x])) (ha : Names (a ++ [x])) (hs : render (a ++ [x]) ∈ keys B.lite.nodes)
    (hnk : render (m ++ [x]) ∉ keys B.lite.nodes) (hi : Made N (.inst (m ++ [x]) (a ++ [x]))) :
    Shown layers (addProxy real B (render (m ++ [x])) (render (a ++ [x])) forced) := by
  unfold addProxy
  simp only
  have hpp : parentPath (render (m ++ [x])) ≠ [] := by
    rw [parentPath_render_snoc hn]
    intro h0
    have := Proxies.head_render m
    rw [h0] at this
    cases this
  have hnm : (sourceNode real B (render (a ++ [x]))).attr A_NAME = .str x := by
    rw [← hk.keys] at hs
    obtain ⟨n, hg⟩ := Option.isSome_iff_exists.1 (get?_isSome.2 hs)
    unfold sourceNode
    rw [hg]
    have := (h _ n hg).name
    rw [firstTable_attr (by rw [this]; rfl), (Props.C09_parent_name_join a x ha).2.1] at this
    exact Option.some.inj this
  obtain ⟨p1, p2, p3, p4⟩ := proxySpec_more (sourceNode real B (render (a ++ [x]))) (parentPath (render (m ++ [x]))) x hnm hpp
  generalize proxySpec (sourceNode real B (render (a ++ [x]))) (parentPath (render (m ++ [x]))) = spec at p1 p2 p3 p4 ⊢
  have key : ∀ layer, Shown layers ⟨{ B.lite with nodes := set (render (m ++ [x])) ⟨some (render (a ++ [x])), [], true⟩ B.lite.nodes },
      set (render (m ++ [x])) ⟨proxyOwn layer (render (a ++ [x])) forced, [spec]⟩ B.tab⟩ := by
    intro layer q n hq
    simp only [get?_set] at hq
    by_cases he : q = render (m ++ [x])
    · rw [if_pos he] at hq
      have hq := Option.some.inj hq
      subst hq
      have hown : ∀ k ∈ [A_NAME, A_CHILD_ORDER, A_EXECUTE_IN, A_START], get? k (proxyOwn layer (render (a ++ [x])) forced) = none := by
        intro k hk
        rw [get?_eq_none]
        intro hm
        have hm' : k ∈ [A_SOURCE_LAYER, A_INSTANCE, A_INSTANCE ++ M_SOURCE] := by
          cases forced
          · have h' : k ∈ [A_INSTANCE, A_INSTANCE ++ M_SOURCE] := hm
            exact List.mem_cons_of_mem _ h'
          · exact hm
        have : ∀ k ∈ [A_NAME, A_CHILD_ORDER, A_EXECUTE_IN, A_START], k ∉ [A_SOURCE_LAYER, A_INSTANCE, A_INSTANCE ++ M_SOURCE] := by
          decide +kernel
        exact this k hk hm'
      have hft : ∀ k ∈ [A_NAME, A_CHILD_ORDER, A_EXECUTE_IN, A_START], ∀ v, get? k spec = some v →
          firstTable k (proxyOwn layer (render (a ++ [x])) forced :: [spec]) = some v := by
        intro k hk v hv
        unfold firstTable
        rw [List.findSome?_cons, hown k hk, List.findSome?_cons, hv]
      refine ⟨?_, ?_, fun _ => hft _ (by simp) _ p3, fun _ => hft _ (by simp) _ p4⟩
      · rw [hft _ (by simp) _ p2]
        unfold Proxies.orderOf
        rw [he]
        simp only [get?_set, if_true]
        rfl
      · rw [hft _ (by simp) _ p1, he, (Props.C09_parent_name_join m x hn).2.1]
    · rw [if_neg he] at hq
      have ho := h q n hq
      refine ⟨?_, ho.name, ho.exec, ho.start⟩
      rw [ho.order]
      unfold Proxies.orderOf
      simp only [get?_set, if_neg he]
  split
  · exact key _
  · refine shown_setOrder (key _) ?_ _ _
    have hk' : render (m ++ [x]) ∉ keys B.tab := by rw [hk.keys]; exact hnk
    simp only [keys_set, if_neg hnk, if_neg hk', hk.keys]

theorem shown_takeOver {B : BSt} (h : Shown layers B) (real : Option Str) (tgt src : Str) : Shown layers (takeOver real B tgt src) :=
  shown_edit (shown_setInst h tgt src) tgt _ _ (by decide +kernel) _ (fun _ _ => rfl)
    (fun _ hne => absurd hne (by decide +kernel)) (fun _ => rfl)

theorem shown_create (same : Str → Str → Bool) (real : Option Str) {acc : BSt × List Str} (C : Separate N) (F : Proxies.Full N O)
    (hg : Proxies.Good N acc.1.lite) (h : Shown layers acc.1) (hk : Kept N layers acc.1) {K : List Str}
    {st : Str × Str} (ht : Proxies.Todo N K st) : Shown layers (create same real acc st).1 := by
  obtain ⟨hsrc, m, b, x, rest, h3, h2, h1, -, -, hi, -⟩ := Proxies.todo_source C F hg ht
  have hst : standIn acc.1 st.1 = acc.1 := by unfold standIn; rw [if_pos hsrc]
  unfold create
  simp only [hst]
  generalize (decide (st.1 ∉ keys acc.1.lite.nodes) && !Proxies.isImplied acc.1.lite st.1) = forced
  split
  · exact shown_congr (shown_takeOver h real st.2 st.1) _ (fun _ => rfl)
  · rename_i hnk
    rw [h2] at hnk ⊢
    rw [h1] at hsrc ⊢
    exact shown_congr (shown_addProxy h hk real forced h3 hi.inst_names.2.1 hsrc hnk hi) _ (fun _ => rfl)

theorem shown_createFold (same : Str → Str → Bool) (real : Option Str) (C : Separate N) (F : Proxies.Full N O) {K : List Str}
    (l : List (Str × Str)) (hl : ∀ st ∈ l, Proxies.Todo N K st) : ∀ acc : BSt × List Str, Proxies.Good N acc.1.lite → Shown layers acc.1 →
    Kept N layers acc.1 → Shown layers (l.foldl (create same real) acc).1 := by
  induction l with
  | nil => intro acc _ h _; exact h
  | cons st l ih =>
    intro acc hg h hk
    rw [List.foldl_cons]
    have hst := hl st List.mem_cons_self
    refine ih (fun s hs => hl s (List.mem_cons_of_mem _ hs)) _ ?_ (shown_create same real C F hg h hk hst) (kept_create same real hk hst)
    rw [(lite_create same real acc st).1]
    exact (Proxies.create_good same (acc := (acc.1.lite, acc.2)) hg hst).1

theorem shown_proxyLoop (same : Str → Str → Bool) {kids : List Str → Str → List Str} (hk : GivesKids kids) (real : Option Str)
    (C : Separate N) (F : Proxies.Full N O) :
    ∀ fuel (acc : BSt × List Str) T imp, Proxies.Good N acc.1.lite → Proxies.ImpOk N (acc.1.lite, acc.2) → Kept N layers acc.1 →
    Shown layers acc.1 → proxyLoop same kids real fuel acc = some (T, imp) → Shown layers T := by
  intro fuel
  induction fuel with
  | zero => intro acc T imp _ _ _ _ h; cases h
  | succ fuel ih =>
    intro acc T imp hg hi hkept hsh h
    rw [proxyLoop] at h
    obtain ⟨l1, l2⟩ := lite_discoverAll same kids acc.1
    obtain ⟨d1, d2, d3, -⟩ := Proxies.discoverAll_spec same hk hg
    have hi' : Proxies.ImpOk N ((Proxies.discoverAll same kids acc.1.lite).1, acc.2) := by
      refine ⟨fun q hq => ?_, hi.new, fun U p a x rest => ?_⟩
      · rw [d2]; exact hi.there q hq
      · rw [d2]; exact hi.plain U p a x rest
    have hkd := kept_discoverAll same kids hkept
    have hsd := shown_discoverAll same kids hsh hkept
    split at h
    · cases h; exact hsd
    · obtain ⟨c1, c2, -⟩ := Proxies.createFold_spec same _ d3 ((Proxies.discoverAll same kids acc.1.lite).1, acc.2) d1 hi'
        (fun q hq => by rw [d2]; exact hq)
      have e := lite_createFold same real (discoverAll same kids acc.1).2 ((discoverAll same kids acc.1).1, acc.2)
      simp only [l1, l2] at e
      rw [← l2] at d3
      refine ih _ _ _ ?_ ?_ (kept_createFold same real _ d3 _ hkd)
        (shown_createFold same real C F _ d3 _ (by rw [l1]; exact d1) hsd hkd) h
      · rw [l2, e.1]; exact c1
      · rw [l2, e.1, e.2]; exact c2

theorem shown_eraseFold (imp : List Str) : ∀ B : BSt, Shown layers B → keys B.tab = keys B.lite.nodes → Dict.Ok B.lite.nodes →
    Shown layers (imp.foldl (fun B p => (⟨{ B.lite with nodes := erase p B.lite.nodes }, erase p B.tab⟩ : BSt)) B) := by
  induction imp with
  | nil => intro B h _ _; exact h
  | cons p imp ih =>
    intro B h hk hok
    rw [List.foldl_cons]
    have hok' : Dict.Ok B.tab := by unfold Dict.Ok; rw [hk]; exact hok
    refine ih _ (fun q n hn => ?_) (keys_erase_congr p _ _ hk) (ok_erase hok p)
    simp only [get?_erase hok'] at hn
    split at hn
    · cases hn
    · rename_i hne
      have ho := h q n hn
      refine ⟨?_, ho.name, ho.exec, ho.start⟩
      rw [ho.order]
      unfold Proxies.orderOf
      simp only [get?_erase hok, if_neg hne]

/-- The child orders of the layers, before proxies are made. -/
def ownOrders (layers : List Comp.LayerNodes) (ns : List Str) : List Str :=
  Props.ReopenRun.mergedOrder (render ns) (stack layers (render ns))

theorem attr_order (p : Str) (bases : List (Dict Str Val)) :
    (names ((Comp.compNode p bases).attr A_CHILD_ORDER)).getD [] = Props.ReopenRun.mergedOrder p bases := by
  unfold Comp.CompNode.attr
  rw [Props.ReopenRun.own_order]
  simp only [Option.some_or, Option.getD_some, names_map]

theorem ordersOf_start (h : SpecNodes layers) (ns : List Str) : ordersOf (start layers).lite ns = ownOrders layers ns := by
  unfold ordersOf ownOrders
  rw [get?_start h]
  split
  · rename_i hs
    rw [hs]
    rfl
  · rw [Option.map_some, Option.getD_some]
    exact attr_order _ _

theorem shown_start (h : SpecNodes layers) (hg : ∀ T ∈ layers, ∃ order, Props.GoodNodes T order) : Shown layers (start layers) := by
  intro p n hn
  have hn : get? p (Comp.compPre layers) = some n := hn
  rw [Comp.get?_compPre layers h.ok p] at hn
  split at hn
  · cases hn
  · rename_i hs
    rw [← Option.some.inj hn]
    refine ⟨?_, ?_, fun h0 => absurd h0 hs, fun h0 => absurd h0 hs⟩
    · unfold firstTable Proxies.orderOf
      rw [List.findSome?_cons, Props.ReopenRun.own_order, get?_start h, if_neg hs]
      simp only [Option.map_some, Option.getD_some]
      rw [show (liteNode (Comp.compNode p (stack layers p))).order = _ from attr_order _ _]
    · obtain ⟨m, t, e⟩ := List.exists_cons_of_ne_nil hs
      obtain ⟨l, hl, hm⟩ := Props.mem_stack (n := m) (p := p) (layers := layers) (by rw [e]; simp)
      obtain ⟨od, hgood⟩ := hg l hl
      unfold firstTable
      rw [List.findSome?_cons, e, Props.ReopenRun.own_name, (hgood.node p m (get?_of_mem hgood.ok hm)).2.1]

/-- The composite layer after `comp_proxies`. -/
theorem shown_compProxies (h : SpecNodes layers) (hn : Named layers) (hg : ∀ T ∈ layers, ∃ order, Props.GoodNodes T order)
    (hw : ∀ i, instPathOf layers [] = some (some i) → i = []) (C : Separate (instPathOf layers))
    (F : Proxies.Full (instPathOf layers) O)
    (same : Str → Str → Bool) {kids : List Str → Str → List Str} (hk : GivesKids kids) (real : Option Str) {fuel : Nat} {B : BSt}
    (hB : compProxies same kids real fuel (start layers) = some B) : Shown layers B := by
  have hS := start_start h hw
  have hN : nodesOf (start layers).lite = instPathOf layers := funext (nodesOf_start h)
  have hgd := Proxies.good_start hS
  have hi := Proxies.impOk_start (start layers).lite
  rw [hN] at hgd hi
  unfold compProxies at hB
  rw [Option.map_eq_some_iff] at hB
  obtain ⟨⟨T, imp⟩, h1, rfl⟩ := hB
  have hkept := kept_proxyLoop same hk real fuel (start layers, []) T imp hgd hi (kept_start h hn) h1
  have hshown := shown_proxyLoop same hk real C F fuel (start layers, []) T imp hgd hi (kept_start h hn) (shown_start h hg) h1
  have hlite := lite_proxyLoop same kids real fuel (start layers, [])
  rw [h1] at hlite
  obtain ⟨g1, -, -⟩ := Proxies.proxyLoop_spec same hk fuel ((start layers).lite, []) T.lite imp hgd hi hlite.symm
  exact shown_eraseFold imp T hshown hkept.keys g1.ok

/-- The tables of a class are those of the composite node. -/
theorem classed_tab (hwf : SpecNodes layers) {B : BSt} (h : Kept N layers B) (hok : Dict.Ok B.lite.nodes) {p : Str} {c : Nat}
    (hc : (p, c) ∈ (classes B).2) :
    ∃ n, get? p B.tab = some n ∧ tablesOf (classes B).1 (classes B).1.bases c = n.own :: n.bases := by
  have hokt : Dict.Ok B.tab := by unfold Dict.Ok; rw [h.keys]; exact hok
  have hB := Inherit.build_built (B.tab.map (fun e => (e.1, e.2.own, e.2.bases)))
    (by rw [List.map_map]; exact hokt)
    (by
      intro n hn
      obtain ⟨e, he, rfl⟩ := List.mem_map.1 hn
      have ht := h.tab e.1 e.2 (get?_of_mem hokt he)
      by_cases hs : stack layers e.1 = []
      · obtain ⟨s, c, e', h1, -⟩ := ht.made hs
        show e.2.bases ≠ []
        rw [h1]
        simp
      · show e.2.bases ≠ []
        rw [(ht.real hs).1]
        exact hs)
  change Inherit.Built _ (classes B).1 (classes B).2 at hB
  have hk : p ∈ Dict.keys (classes B).2 := mem_keys_of_mem hc
  rw [hB.keys, List.map_map] at hk
  obtain ⟨e, he, rfl⟩ := List.mem_map.1 hk
  obtain ⟨c', h1, h2⟩ := hB.tables _ (List.mem_map_of_mem he)
  have e1 : c' = c := Option.some.inj ((get?_of_mem hB.laid.ok h1).symm.trans (get?_of_mem hB.laid.ok hc))
  subst e1
  exact ⟨e.2, get?_of_mem hokt he, h2⟩

end Nxt.Build
