import Verif.Lemmas.Infer
import Verif.Props.Path
import Verif.Props.Inherit
import Verif.Props.InheritLayers
import Verif.Props.Layer
/-!
# Property C114: nodes inferred from the layers below
-/
namespace Nxt.Props
open Dict NodeData Mro Inherit Infer Spec

namespace Inferred

/-- The paths of the ancestors, from the world down. -/
theorem ancestors_down {ns : List Str} (hN : Names ns) (h0 : ns ≠ []) :
    (Path.allAncestorPaths (render ns) ++ [Path.WORLD]).reverse = (List.range ns.length).map (fun k => render (ns.take k)) := by
  rw [C10_ancestors_exact ns hN, List.reverse_append, ← List.map_reverse, List.reverse_reverse]
  obtain ⟨m, hm⟩ : ∃ m, ns.length = m + 1 := ⟨ns.length - 1, by
    have := List.length_pos_iff.2 h0; omega⟩
  rw [hm, List.range_succ_eq_map, List.range'_eq_map_range]
  simp only [List.reverse_singleton, List.singleton_append, List.map_cons, List.map_map, Nat.add_sub_cancel, List.take_zero]
  rw [Path.render_nil]
  congr 1
  refine List.map_congr_left fun k _ => ?_
  simp [Nat.add_comm]

/-- The start of the loop. -/
theorem half_start (layers : List Comp.LayerNodes) {ns : List Str} (hN : Names ns) :
    ∃ specs links, Half layers ns 0
      ⟨addNode onlyNode [] (if stack layers (render ns) = [] then [dummy (render ns)] else stack layers (render ns)),
        [(render ns, 1)], none⟩ specs links := by
  generalize hts : (if stack layers (render ns) = [] then [dummy (render ns)] else stack layers (render ns)) = ts
  have hne : ts ≠ [] := by
    rw [← hts]
    split
    · simp
    · assumption
  have hA := laid_addNodes built_nil.laid (render ns) [] ts hne rfl
  refine ⟨_, _, hA, ?_, rfl, ?_, ?_, ?_, rfl, ?_, ?_, rfl⟩
  · simp [get?]
  · intro p c hc
    exact .inl (Prod.mk.inj (List.mem_singleton.1 hc)).1
  · intro k hk; omega
  · intro k hk; omega
  · intro p c hc
    obtain ⟨rfl, rfl⟩ := Prod.mk.inj (List.mem_singleton.1 hc)
    rw [hts]
    exact tables_addNodes onlyNode [] ts
  · intro p c hc k _
    obtain ⟨rfl, rfl⟩ := Prod.mk.inj (List.mem_singleton.1 hc)
    rfl

/-- The loop from `j` on. -/
theorem half_loop {layers : List Comp.LayerNodes} {ns : List Str} (hN : Names ns)
    (hno : ∀ k < ns.length, ∀ n ∈ stack layers (render (ns.take k)), (getAttr n A_INSTANCE).hasOpinion = false) (m : Nat) :
    ∀ (j : Nat) (st : Infer.St) (specs links : Nat → List Nat), j + m = ns.length → Half layers ns j st specs links →
      ∃ st' specs' links', ancestors layers st ((List.range' j m).map (fun k => render (ns.take k))) = some (some st') ∧
        Half layers ns ns.length st' specs' links' := by
  induction m with
  | zero =>
    intro j st specs links hj h
    exact ⟨st, specs, links, rfl, by rw [← hj]; exact h⟩
  | succ m ih =>
    intro j st specs links hj h
    obtain ⟨st1, s1, l1, h1, h2⟩ := half_step hN (by omega) h (hno j (by omega))
    obtain ⟨st2, s2, l2, h3, h4⟩ := ih (j + 1) st1 s1 l1 (by omega) h2
    refine ⟨st2, s2, l2, ?_, h4⟩
    rw [List.range'_succ, List.map_cons]
    unfold ancestors
    rw [h1]
    exact h3

/-- What a finished temporary layer gives. -/
theorem value {layers : List Comp.LayerNodes} {ns : List Str} (hN : Names ns) {st : Infer.St} {specs links : Nat → List Nat}
    (h : Half layers ns ns.length st specs links) {g : Classes} (hown : g.own = st.g.own) {links' : Nat → List Nat}
    (hL : Laid g st.nodes specs links')
    (hlink : ∀ ms c, Names ms → (render ms, c) ∈ st.nodes → links' c = (nearestAbove st.nodes ms).toList)
    {b : List Str} {k : Str} (hk : UserName b k) : g.attr? 1 k = layered layers ns k := by
  have hint : k ∉ internalNames := hk.2.1
  have hone := mem_of_get? h.first
  obtain ⟨l, h1, h2⟩ := attr_lineage hL hlink k (ns.length + 1) ns 1 (by omega) hN hone
  have hnode : get? k (g.own 0) = none := by
    rw [hown, h.node, get?_eq_none]
    intro hm
    have : ∀ x ∈ keys NODE_CLASS, x ∈ internalNames := by decide +kernel
    exact hint (this k hm)
  unfold Classes.attr?
  rw [(Laid.mro_iff hL (hL.comp _ 1 hone).2.1).2 h1, Option.bind_some, h2, hnode, Option.or_none]
  unfold inherited layered
  have key : ∀ q ∈ lineage ns, ((get? (render q) st.nodes).map (tablesOf g specs)).bind (firstTable k) =
      (stack layers (render q)).findSome? (get? k) := by
    intro q hq
    rw [Increment.mem_lineage] at hq
    have hqt : q = ns.take q.length := List.prefix_iff_eq_take.1 hq
    cases hg : get? (render q) st.nodes with
    | none =>
      have : stack layers (render q) = [] := by
        by_cases hlt : q.length < ns.length
        · have := h.there _ hlt
          rw [← hqt] at this
          exact this.1 hg
        · have hle := hq.length_le
          rw [hqt, show q.length = ns.length by omega, List.take_length, h.first] at hg
          exact nomatch hg
      rw [this]; rfl
    | some d =>
      have hd := mem_of_get? hg
      rw [Option.map_some, Option.bind_some]
      unfold tablesOf firstTable
      rw [hown, h.tables _ d hd, List.findSome?_cons, h.own _ d hd k (fun e => hint (by rw [e]; decide +kernel))]
      simp only
      split
      · rename_i he
        rw [he, List.findSome?_cons]
        have : get? k (dummy (render q)) = none := by
          rw [get?_eq_none]
          intro hm
          have : ∀ x ∈ [A_NAME, A_PARENT, A_INSTANCE, A_PROXY, A_SOURCE_LAYER], x ∈ internalNames := by decide +kernel
          exact hint (this k hm)
        rw [this]
      · rfl
  generalize lineage ns = Q at key
  induction Q with
  | nil => rfl
  | cons q Q ih =>
    rw [List.findSome?_cons, List.findSome?_cons, key q List.mem_cons_self, ih fun q' hq' => key q' (List.mem_cons_of_mem _ hq')]


/-- Inferring a node from layers, when no instance is met. -/
theorem inferIn_half {layers : List Comp.LayerNodes} {ns : List Str} (hN : Names ns)
    (hno : ∀ q ∈ lineage ns, ∀ n ∈ stack layers (render q), (getAttr n "_instance".toList).hasOpinion = false) :
    ∃ g st specs links links', inferIn layers (render ns) = .node g 1 ∧ Half layers ns ns.length st specs links ∧
      g.own = st.g.own ∧ Laid g st.nodes specs links' ∧
      ∀ ms c, Names ms → (render ms, c) ∈ st.nodes → links' c = (nearestAbove st.nodes ms).toList := by
  have hno' : ∀ k ≤ ns.length, ∀ n ∈ stack layers (render (ns.take k)), (getAttr n A_INSTANCE).hasOpinion = false :=
    fun k _ n hn => hno (ns.take k) (Increment.mem_lineage.2 (List.take_prefix _ _)) n hn
  obtain ⟨s0, l0, hH⟩ := half_start layers hN
  have hown0 := hno' ns.length (Nat.le_refl _)
  rw [List.take_length] at hown0
  generalize hts : (if stack layers (render ns) = [] then [dummy (render ns)] else stack layers (render ns)) = ts at hH
  have hsil : (getAttr (ts.headD []) A_INSTANCE).hasOpinion = false := by
    rw [← hts]
    split
    · rfl
    · rename_i hne
      cases hst : stack layers (render ns) with
      | nil => exact absurd hst hne
      | cons n l => exact hown0 n (by rw [hst]; exact List.mem_cons_self)
  by_cases h0 : ns = []
  · subst h0
    refine ⟨addNode onlyNode [] ts, _, s0, l0, l0, ?_, hH, rfl, hH.laid, ?_⟩
    · unfold inferIn
      simp only [specsAt_eq]
      rw [hts, show (Path.allAncestorPaths (render []) ++ [Path.WORLD]).reverse = [render []] from rfl]
      have hpp : ¬ (Path.parentPath (render []) ≠ [] ∧ Path.parentPath (render []) ≠ render []) := by decide
      unfold ancestors ancestor
      simp only [specsAt_eq]
      by_cases he : stack layers (render []) = []
      · rw [if_pos he]
        unfold ancestors finish
        simp only [hsil, if_neg hpp]
        rfl
      · rw [if_neg he]
        unfold ancestors finish
        simp only [hsil, if_neg hpp, get?, if_true]
        rfl
    · intro ms c hM hc
      obtain ⟨h1, h2⟩ := Prod.mk.inj (List.mem_singleton.1 hc)
      obtain rfl := Path.render_inj (b := []) hM hN h1
      subst h2
      exact hH.free
  · obtain ⟨st, specs, links, h1, h2⟩ := half_loop hN (fun k hk => hno' k (Nat.le_of_lt hk)) ns.length 0 _ s0 l0 (by omega) hH
    rw [← List.range_eq_range', ← ancestors_down hN h0] at h1
    have hone := mem_of_get? h2.first
    have hpp : Path.parentPath (render ns) ≠ [] ∧ Path.parentPath (render ns) ≠ render ns := by
      rcases Path.eq_nil_or_snoc ns with rfl | ⟨m, x, rfl⟩
      · exact absurd rfl h0
      · rw [Path.parentPath_render_snoc hN]
        refine ⟨?_, fun e => ?_⟩
        · unfold render
          split
          · simp
          · rw [Ne, Path.slashed_eq_nil]; assumption
        · have := congrArg List.length (Path.render_inj (Path.names_append.1 hN).1 hN e)
          simp at this
    have hpar : st.parent = nearestAbove st.nodes ns := by
      have := h2.parent
      rw [List.take_length] at this
      exact this
    have hUp : ∀ links' : Nat → List Nat, (∀ d, d ≠ 1 → links' d = links d) → links' 1 = (nearestAbove st.nodes ns).toList →
        ∀ ms c, Names ms → (render ms, c) ∈ st.nodes → links' c = (nearestAbove st.nodes ms).toList := by
      intro links' ho h1' ms c hM hc
      by_cases hc1 : c = 1
      · subst hc1
        rw [h1', Path.render_inj hM hN (h2.laid.inj _ _ _ hc hone)]
      · rw [ho c hc1]
        rcases h2.paths _ c hc with he | ⟨k, hk, he⟩
        · rw [he] at hc
          have := get?_of_mem h2.laid.ok hc
          rw [h2.first] at this
          exact absurd (Option.some.inj this).symm hc1
        · obtain rfl := Path.render_inj hM (Path.names_take hN k) he
          exact h2.link k hk c hc
    have hfin : ∀ g, addParent st.g 1 st.parent = some g → inferIn layers (render ns) = .node g 1 := by
      intro g hg
      unfold inferIn
      simp only [specsAt_eq]
      rw [hts, h1]
      unfold finish
      simp only [hsil, if_pos hpp, hg]
      rfl
    cases hb : nearestAbove st.nodes ns with
    | none =>
      refine ⟨st.g, st, specs, links, links, hfin _ (by rw [hpar, hb]; rfl), h2, rfl, h2.laid, ?_⟩
      exact hUp links (fun _ _ => rfl) (by rw [h2.free, hb]; rfl)
    | some b =>
      obtain ⟨h3, h4⟩ := link_up h2.laid (fun ms c hM hc => by
        by_cases hc1 : c = 1
        · subst hc1; exact .inl h2.free
        · rcases h2.paths _ c hc with he | ⟨k, hk, he⟩
          · rw [he] at hc
            have := get?_of_mem h2.laid.ok hc
            rw [h2.first] at this
            exact absurd (Option.some.inj this).symm hc1
          · obtain rfl := Path.render_inj hM (Path.names_take hN k) he
            exact .inr (h2.link k hk c hc)) (fun p c hc => by
        rcases h2.paths p c hc with rfl | ⟨k, _, rfl⟩
        · exact ⟨ns, hN, rfl⟩
        · exact ⟨_, Path.names_take hN k, rfl⟩) hN hone h2.free hb
      refine ⟨withBases st.g 1 (specs 1 ++ [b]), st, specs, links, _, hfin _ (by rw [hpar, hb]; exact h3), h2, rfl, h4, ?_⟩
      refine hUp _ (fun d hd => if_neg hd) ?_
      rw [if_pos rfl, hb]; rfl

end Inferred

/-! ## C114 -/

/-- C114, partial: at a depth below the display layer a node is made from the active layers there and below, even if none
of them has the node; when no node of its lineage has an instance path in them, the value of every attribute of the user
is the one these layers give: that of the nearest node in the lineage, and there of the strongest layer, which has it.

Missing: nodes whose instances are followed, see `C114_instance_violation`. -/
theorem C114_lower_partial {L : Type} (muted soloed : L → Bool) (table : L → Comp.LayerNodes) (above mid below : List L)
    {display last depth : Nat} (hd : 0 < depth) (ha : above.length = display + depth) (hm : above.length + mid.length = last + 1)
    {active : List L} (hact : active = mid.filter (fun l => !muted l && (soloed l || !mid.any soloed))) (hne : active ≠ [])
    {ns : List Str} (hN : Names ns)
    (hno : ∀ q ∈ lineage ns, ∀ n ∈ stack (active.map table) (render q), (getAttr n "_instance".toList).hasOpinion = false) :
    ∃ g c, inferLowerComp muted soloed table (above ++ mid ++ below) display last depth (render ns) = .node g c ∧
      ∀ b k, UserName b k → g.attr? c k = layered (active.map table) ns k := by
  obtain ⟨g, st, specs, links, links', h1, h2, h3, h4, h5⟩ := Inferred.inferIn_half hN hno
  refine ⟨g, 1, ?_, fun b k hk => Inferred.value hN h2 h3 h4 h5 hk⟩
  have hslice : ((above ++ mid ++ below).take (last + 1)).drop (display + depth) = mid := by
    rw [← hm, ← ha, ← List.length_append, List.take_left, List.drop_left]
  unfold inferLowerComp
  rw [if_neg (by omega), if_neg (by omega)]
  simp only [Int.toNat_natCast]
  rw [hslice, C22_active, ← hact, if_neg hne]
  exact h1

/-- C114: at depth 0 the node itself is returned; below 0, or when no layer is active at the depth, nothing is. -/
theorem C114_none {L : Type} (muted soloed : L → Bool) (table : L → Comp.LayerNodes) (sub : List L) (display last : Nat)
    (path : Str) :
    inferLowerComp muted soloed table sub display last 0 path = .same ∧
    (∀ depth : Int, depth < 0 → inferLowerComp muted soloed table sub display last depth path = .nothing) ∧
    ∀ depth : Nat, 0 < depth → (∀ i l, display + depth ≤ i → i ≤ last → sub[i]? = some l → muted l = true) →
      inferLowerComp muted soloed table sub display last depth path = .nothing := by
  refine ⟨rfl, fun depth hd => ?_, fun depth hd hm => ?_⟩
  · unfold inferLowerComp
    rw [if_neg (by omega), if_pos hd]
  · unfold inferLowerComp
    rw [if_neg (by omega), if_neg (by omega)]
    simp only [Int.toNat_natCast]
    rw [if_pos]
    rw [C22_active, List.filter_eq_nil_iff]
    intro l hl
    obtain ⟨i, hi⟩ := List.mem_iff_getElem?.1 hl
    rw [List.getElem?_drop, List.getElem?_take] at hi
    split at hi
    · rw [hm _ l (by omega) (by omega) hi]; simp
    · exact nomatch hi

/-- C114, partial: a node inferred at a depth has the values the stage would have for it if it were composed from the
active layers at that depth. -/
theorem C114_as_composed_partial {layers : List Comp.LayerNodes} (h : SpecNodes layers)
    (hno : ∀ l ∈ layers, ∀ p n, (p, n) ∈ l → get? "_instance".toList n = some .none) {order : List (Str × Nat)}
    (ho : order.Perm (classesOf layers).2) {ns : List Str} (hN : Names ns) :
    ∃ g c g', inferIn layers (render ns) = .node g c ∧
      postProxy (classesOf layers).2 order (classesOf layers).1 = some g' ∧
      ∀ c' b k, UserName b k → get? (render ns) (classesOf layers).2 = some c' → g.attr? c k = g'.attr? c' k := by
  obtain ⟨g, st, specs, links, links', h1, h2, h3, h4, h5⟩ := Inferred.inferIn_half (layers := layers) hN (by
    intro q _ n hn
    obtain ⟨l, hl, hm⟩ := mem_stack hn
    rw [getAttr_of_get? (hno l hl _ n hm)]
    rfl)
  obtain ⟨g', h6, h7⟩ := C76_layers h hno ho
  exact ⟨g, 1, g', h1, h6, fun c' b k hk hc' => by
    rw [Inferred.value hN h2 h3 h4 h5 hk, h7 ns c' k b hN hk hc']⟩

/-- C114: what the strongest spec at the path has, the inferred node has, whatever attribute it is. -/
theorem C114_strongest {layers : List Comp.LayerNodes} {ns : List Str} (hN : Names ns)
    (hno : ∀ q ∈ lineage ns, ∀ n ∈ stack layers (render q), (getAttr n "_instance".toList).hasOpinion = false)
    {n : Dict Str Val} {rest : List (Dict Str Val)} (hs : stack layers (render ns) = n :: rest) :
    ∃ g c, inferIn layers (render ns) = .node g c ∧
      ∀ k v, k ≠ "_instance".toList → get? k n = some v → g.attr? c k = some v := by
  obtain ⟨g, st, specs, links, links', h1, h2, h3, h4, h5⟩ := Inferred.inferIn_half hN hno
  refine ⟨g, 1, h1, fun k v hk hn => ?_⟩
  have hone := mem_of_get? h2.first
  obtain ⟨l, h6, h7⟩ := attr_lineage h4 h5 k (ns.length + 1) ns 1 (by omega) hN hone
  unfold Classes.attr?
  rw [(Laid.mro_iff h4 (h4.comp _ 1 hone).2.1).2 h6, Option.bind_some, h7]
  unfold inherited
  obtain ⟨t, ht⟩ := lineage_head ns
  rw [ht, List.findSome?_cons]
  simp only [h2.first, Option.map_some, Option.bind_some]
  unfold tablesOf firstTable
  rw [h3, h2.tables _ 1 hone, hs, if_neg (by simp), List.findSome?_cons, h2.own _ 1 hone _ (show k ≠ A_INSTANCE from hk)]
  simp only [List.findSome?_cons, hn]
  rfl

/-- C114, violation: opinions are not looked for.  When the strongest spec has no code, the inferred node has none, though a
composed node has the code of a weaker layer (C30). -/
theorem C114_code_violation {layers : List Comp.LayerNodes} {ns : List Str} (hN : Names ns)
    (hno : ∀ q ∈ lineage ns, ∀ n ∈ stack layers (render q), (getAttr n "_instance".toList).hasOpinion = false)
    {n m : Dict Str Val} {rest : List (Dict Str Val)} (hs : stack layers (render ns) = n :: rest)
    (hn : get? "_code".toList n = some (.list [])) (hm : strongest (stack layers (render ns)) "_code".toList = some m) :
    ∃ g c, inferIn layers (render ns) = .node g c ∧ g.attr? c "_code".toList = some (.list []) ∧
      (getAttr m "_code".toList).hasOpinion = true := by
  obtain ⟨g, c, h1, h2⟩ := C114_strongest hN hno hs
  refine ⟨g, c, h1, h2 _ _ (by decide) hn, ?_⟩
  unfold strongest at hm
  exact List.find?_some (p := fun n => (getAttr n "_code".toList).hasOpinion) hm

/-- Two layers: the weaker makes `/n` an instance of `/s`. -/
def exInferInst : List Comp.LayerNodes :=
  let node (par : String) (inst : Val) (more : Dict Str Val) : Dict Str Val :=
    [("_parent_path".toList, .str par.toList), ("_instance".toList, inst), ("_enabled".toList, .none),
     ("_comment".toList, .none), ("_code".toList, .list []), ("_child_order".toList, .list [])] ++ more
  [[("/n".toList, node "/" .none [])],
   [("/s".toList, node "/" .none [("x".toList, .str "1".toList)]), ("/n".toList, node "/" (.str "/s".toList) [])]]

/-- The value of `x` at `/n` when the layers are composed. -/
def exComposedX : Option Val :=
  (postProxy (classesOf exInferInst).2 (classesOf exInferInst).2 (classesOf exInferInst).1).bind (fun g =>
    (get? "/n".toList (classesOf exInferInst).2).bind (fun c => g.attr? c "x".toList))

/-- The value of `x` at `/n` inferred from the layers, when a node is made. -/
def exInferredX : Option (Option Val) :=
  match inferIn exInferInst "/n".toList with
  | .node g c => some (g.attr? c "x".toList)
  | _ => none

/-- C114, violation: the inferred node reads its instance path from the strongest spec only.  When a weaker layer gives it,
the node is inferred without its instance: composed from the same layers, `/n` has the attribute `x` of its source, inferred
it has none. -/
theorem C114_instance_violation :
    (∃ v, exComposedX = some v ∧ v.truthy = true) ∧ exInferredX = some none := by
  refine ⟨⟨.str "1".toList, by rfl, rfl⟩, ?_⟩
  have h := C10_ancestors_exact ["n".toList] (by decide)
  rw [show render ["n".toList] = "/n".toList from rfl] at h
  unfold exInferredX inferIn
  rw [h]
  rfl

/-- Three layers; the display layer is the first.  Below it `/a/b` is in the last one only. -/
def exInferLayers : List Comp.LayerNodes :=
  [[("/a/b".toList, [("x".toList, .str "3".toList)])],
   [("/a".toList, [("y".toList, .str "2".toList), ("x".toList, .str "2".toList)]), ("/".toList, [("z".toList, .str "0".toList)])],
   [("/a/b".toList, [("x".toList, .str "1".toList)]), ("/a".toList, [("y".toList, .str "1".toList)])]]

/-- The hypotheses are met: at depth 1 the value of `x` is that of the weak layer, `y` that of the stronger layer of the parent,
`z` that of the world. -/
example : ∃ g c, inferLowerComp (fun _ => false) (fun _ => false) id exInferLayers 0 2 1 "/a/b".toList = .node g c ∧
    g.attr? c "x".toList = some (.str "1".toList) ∧ g.attr? c "y".toList = some (.str "2".toList) ∧
    g.attr? c "z".toList = some (.str "0".toList) := by
  obtain ⟨g, c, h1, h2⟩ := C114_lower_partial (L := Comp.LayerNodes) (fun _ => false) (fun _ => false) id
    (exInferLayers.take 1) (exInferLayers.drop 1) [] (display := 0) (last := 2) (depth := 1) (by omega) rfl rfl rfl (by simp [exInferLayers])
    (ns := ["a".toList, "b".toList]) (by decide) (by
      intro q hq n hn
      have hall : ∀ l ∈ exInferLayers, ∀ p n, (p, n) ∈ l → (get? "_instance".toList n).isSome = false := by
        intro l hl p n hm
        simp only [exInferLayers, List.mem_cons, List.not_mem_nil, or_false] at hl
        rcases hl with rfl | rfl | rfl <;> simp only [List.mem_cons, List.not_mem_nil, or_false, Prod.mk.injEq] at hm
        · rw [hm.2]; rfl
        · rcases hm with hm | hm <;> (rw [hm.2]; rfl)
        · rcases hm with hm | hm <;> (rw [hm.2]; rfl)
      obtain ⟨l, hl, hm⟩ := mem_stack hn
      have hl' : l ∈ exInferLayers := by
        simp only [List.map_id, List.mem_filter] at hl
        exact List.mem_of_mem_drop hl.1
      have := hall l hl' _ n hm
      unfold getAttr
      cases hg : get? "_instance".toList n with
      | none => rfl
      | some v => rw [hg] at this; exact nomatch this)
  have hu : ∀ k ∈ [['x'], ['y'], ['z']], UserName [] k := by
    intro k hk
    have h1 : k ∉ internalNames := by
      simp only [List.mem_cons, List.not_mem_nil, or_false] at hk
      rcases hk with rfl | rfl | rfl <;> decide +kernel
    refine ⟨by simp, h1, fun m hm pre he => ?_⟩
    have h2 : k.length = 1 := by
      simp only [List.mem_cons, List.not_mem_nil, or_false] at hk
      rcases hk with rfl | rfl | rfl <;> rfl
    have h3 := congrArg List.length he
    simp only [List.length_append] at h3
    have h4 : "__nxt".toList.length = 5 := by decide
    omega
  refine ⟨g, c, h1, ?_, ?_, ?_⟩
  · rw [h2 [] "x".toList (hu _ (by decide))]; rfl
  · rw [h2 [] "y".toList (hu _ (by decide))]; rfl
  · rw [h2 [] "z".toList (hu _ (by decide))]; rfl

/-- The weaker of two layers has the code. -/
def exInferCode : List Comp.LayerNodes :=
  [[("/n".toList, [("_code".toList, .list [])])], [("/n".toList, [("_code".toList, .list [.str "x = 1".toList])])]]

example : ∃ g c, inferIn exInferCode "/n".toList = .node g c ∧ g.attr? c "_code".toList = some (.list []) := by
  obtain ⟨g, c, h1, h2, -⟩ := C114_code_violation (layers := exInferCode) (ns := ["n".toList]) (by decide) (by
    intro q hq n hn
    have hq' : q = ["n".toList] ∨ q = [] := by simpa [lineage, lineageRev] using hq
    rcases hq' with rfl | rfl
    · have : n = [("_code".toList, Val.list [])] ∨ n = [("_code".toList, Val.list [.str "x = 1".toList])] := by
        have : n ∈ [[("_code".toList, Val.list [])], [("_code".toList, Val.list [.str "x = 1".toList])]] := hn
        simpa using this
      rcases this with rfl | rfl <;> rfl
    · exact nomatch (show n ∈ ([] : List (Dict Str Val)) from hn)) (n := [("_code".toList, .list [])])
    (m := [("_code".toList, .list [.str "x = 1".toList])]) rfl rfl rfl
  exact ⟨g, c, h1, h2⟩

end Nxt.Props
