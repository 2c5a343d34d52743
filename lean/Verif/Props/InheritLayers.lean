import Verif.Props.Inherit
import Verif.Lemmas.InheritBuild
import Verif.Lemmas.InheritPlain
import Verif.Lemmas.Comp
import Verif.Spec.Files
/-!
# Properties C76–: inheritance from the layers up
-/
namespace Nxt.Props
open Dict NodeData Mro Inherit Spec

/-- The own table of a composite node has only its name, its child order and the composed attributes. -/
theorem own_other (p : Str) (bases : List (Dict Str Val)) {k : Str} (hov : k ∉ Comp.OVERLOAD)
    (hsrc : ∀ x ∈ Comp.OVERLOAD, k ≠ x ++ M_SOURCE) (hco : k ≠ A_CHILD_ORDER) (hnm : A_NAME ≠ k) :
    get? k (Comp.compNode p bases).own = none := by
  unfold Comp.compNode
  simp only
  rw [get?_set, if_neg hco]
  have : ∀ (bs : List (Dict Str Val)) (st : Dict Str Val × List Str), get? k st.1 = none →
      get? k (bs.foldl (Comp.overloadBase p) st).1 = none := by
    intro bs
    induction bs with
    | nil => intro st h; exact h
    | cons m ms ih =>
      intro st h
      rw [List.foldl_cons]
      apply ih
      show get? k (Comp.OVERLOAD.foldl (Comp.overloadAttr p m) st.1) = none
      rw [(Comp.get?_overloadAttrs p m st.1 Comp.OVERLOAD (fun _ h => h) k).2.2 hov hsrc, h]
  apply this
  cases bases.head? with
  | none => rfl
  | some m => simp only [get?]; rw [if_neg hnm]

/-- What the classes made from layers are. -/
theorem classesOf_spec {layers : List Comp.LayerNodes} (h : SpecNodes layers) :
    Laid (classesOf layers).1 (classesOf layers).2 (classesOf layers).1.bases (fun _ => []) ∧
    (classesOf layers).1.own 0 = NODE_CLASS ∧
    (∀ p c, (p, c) ∈ (classesOf layers).2 → stack layers p ≠ [] ∧
      tablesOf (classesOf layers).1 (classesOf layers).1.bases c =
        (Comp.compNode p (stack layers p)).own :: stack layers p) ∧
    ∀ p, get? p (classesOf layers).2 = none ↔ stack layers p = [] := by
  have hget := Comp.get?_compPre layers h.ok
  have hok : Dict.Ok (Comp.compPre layers) := by
    have : keys (Comp.compPre layers) = keys (Comp.baseMapping layers) := by
      unfold Comp.compPre keys; rw [List.map_map]; rfl
    unfold Dict.Ok
    rw [this]
    exact (Comp.baseMapping_spec layers h.ok).1
  have hB := build_built ((Comp.compPre layers).map (fun e => (e.1, e.2.own, e.2.bases)))
    (by rw [List.map_map]; exact hok)
    (by
      intro n hn
      obtain ⟨e, he, rfl⟩ := List.mem_map.1 hn
      have := get?_of_mem (k := e.1) (v := e.2) hok he
      rw [hget] at this
      split at this
      · cases this
      · rename_i hne
        rw [← Option.some.inj this]
        exact hne)
  change Built _ (classesOf layers).1 (classesOf layers).2 at hB
  refine ⟨hB.laid, hB.node, ?_, ?_⟩
  · intro p c hc
    have hk : p ∈ keys (classesOf layers).2 := mem_keys_of_mem hc
    rw [hB.keys, List.map_map] at hk
    obtain ⟨e, he, rfl⟩ := List.mem_map.1 hk
    obtain ⟨c', h1, h2⟩ := hB.tables _ (List.mem_map_of_mem he)
    have e1 : c' = c := Option.some.inj ((get?_of_mem hB.laid.ok h1).symm.trans (get?_of_mem hB.laid.ok hc))
    subst e1
    have h3 := get?_of_mem (k := e.1) (v := e.2) hok he
    rw [hget] at h3
    split at h3
    · cases h3
    · rename_i hne
      refine ⟨hne, ?_⟩
      rw [h2, ← Option.some.inj h3]
      rfl
  · intro p
    rw [get?_eq_none, hB.keys, List.map_map]
    have : p ∈ List.map (Prod.fst ∘ fun e : Str × Comp.CompNode => (e.1, e.2.own, e.2.bases)) (Comp.compPre layers) ↔
        p ∈ keys (Comp.compPre layers) := Iff.rfl
    rw [this, ← get?_eq_none, hget]
    split <;> simp_all

theorem mem_stack {layers : List Comp.LayerNodes} {p : Str} {n : Dict Str Val} (h : n ∈ stack layers p) :
    ∃ l ∈ layers, (p, n) ∈ l := by
  unfold stack at h
  obtain ⟨l, hl, hn⟩ := List.mem_filterMap.1 h
  exact ⟨l, hl, mem_of_get? hn⟩

/-- The classes made from layers meet what C70–C75 ask for. -/
theorem classesOf_ready {layers : List Comp.LayerNodes} (h : SpecNodes layers) :
    let g := (classesOf layers).1
    let nodes := (classesOf layers).2
    Laid g nodes g.bases (fun _ => []) ∧ (∀ p c, (p, c) ∈ nodes → ∃ ns, Names ns ∧ p = render ns) ∧
    (∀ ns c, Names ns → (render ns, c) ∈ nodes →
      firstTable A_PARENT (tablesOf g g.bases c) = some (.str (parentText ns))) ∧
    (∀ p c, (p, c) ∈ nodes → (firstTable A_INSTANCE (tablesOf g g.bases c)).isSome) ∧
    ∀ a ∈ ["_enabled".toList, "_comment".toList, "_code".toList], ∀ p c, (p, c) ∈ nodes →
      (firstTable a (tablesOf g g.bases c)).isSome := by
  obtain ⟨h1, _, h3, _⟩ := classesOf_spec h
  have hkey : ∀ a ∈ ["_instance", "_enabled", "_comment", "_code"].map String.toList, ∀ p c,
      (p, c) ∈ (classesOf layers).2 → (firstTable a (tablesOf (classesOf layers).1 (classesOf layers).1.bases c)).isSome := by
    intro a ha p c hc
    obtain ⟨hne, ht⟩ := h3 p c hc
    rw [ht]
    unfold firstTable
    rw [List.findSome?_isSome_iff]
    obtain ⟨n, t, hs⟩ := List.exists_cons_of_ne_nil hne
    have hn : n ∈ stack layers p := by rw [hs]; simp
    obtain ⟨l, hl, hm⟩ := mem_stack hn
    exact ⟨n, List.mem_cons_of_mem _ hn, h.keys l hl p n hm a ha⟩
  refine ⟨h1, ?_, ?_, hkey _ (by decide +kernel), fun a ha => hkey a ?_⟩
  · intro p c hc
    obtain ⟨n, t, hs⟩ := List.exists_cons_of_ne_nil (h3 p c hc).1
    obtain ⟨l, hl, hm⟩ := mem_stack (n := n) (p := p) (layers := layers) (by rw [hs]; simp)
    exact h.path l hl p n hm
  · intro ns c hN hc
    obtain ⟨hne, ht⟩ := h3 _ c hc
    obtain ⟨n, t, hs⟩ := List.exists_cons_of_ne_nil hne
    obtain ⟨l, hl, hm⟩ := mem_stack (n := n) (p := render ns) (layers := layers) (by rw [hs]; simp)
    rw [ht]
    unfold firstTable
    rw [List.findSome?_cons, own_other _ _ (by decide +kernel) (by decide +kernel) (by decide +kernel) (by decide +kernel)]
    simp only
    rw [hs, List.findSome?_cons]
    have := h.parent l hl ns n hN hm
    rw [show A_PARENT = "_parent_path".toList from rfl, this]
  · simp only [List.mem_cons, List.not_mem_nil, or_false] at ha
    rcases ha with rfl | rfl | rfl <;> decide +kernel

/-- A node without an instance path. -/
theorem instances_none {nodes : Dict Str Nat} {g : Classes} (order : List (Str × Nat))
    (h : ∀ pc ∈ order, ∀ s, g.attr pc.2 A_INSTANCE ≠ .str s) : order.foldlM (instanceArc nodes) g = some g := by
  induction order with
  | nil => rfl
  | cons pc order ih =>
    have : instanceArc nodes g pc = some g := by
      unfold instanceArc
      split
      · rename_i ip hip; exact absurd hip (h pc List.mem_cons_self ip)
      · rfl
    rw [List.foldlM_cons, this]
    exact ih fun x hx => h x (List.mem_cons_of_mem _ hx)

/-- Without instance paths in the layers a node finds none. -/
theorem layers_no_instance {layers : List Comp.LayerNodes} (h : SpecNodes layers)
    (hno : ∀ l ∈ layers, ∀ p n, (p, n) ∈ l → get? "_instance".toList n = some .none) : ∀ p c, (p, c) ∈ (classesOf layers).2 →
      firstTable A_INSTANCE (tablesOf (classesOf layers).1 (classesOf layers).1.bases c) = some .none := by
  obtain ⟨_, hnode, htab, hkeys⟩ := classesOf_spec h
  intro p c hc
  obtain ⟨hne, ht⟩ := htab p c hc
  have hall : ∀ n ∈ stack layers p, get? A_INSTANCE n = some .none := by
    intro n hn
    obtain ⟨l, hl, hm⟩ := mem_stack hn
    exact hno l hl p n hm
  have hown : get? A_INSTANCE (Comp.compNode p (stack layers p)).own = none := by
    unfold Comp.compNode
    simp only
    rw [get?_set, if_neg (by decide +kernel)]
    have hnone : strongest (stack layers p) A_INSTANCE = none := by
      unfold strongest
      rw [List.find?_eq_none]
      intro n hn
      rw [getAttr_of_get? (hall n hn)]
      decide
    have key : ∀ own co, get? A_INSTANCE own = none →
        get? A_INSTANCE ((stack layers p).reverse.foldl (Comp.overloadBase p) (own, co)).1 = none := by
      intro own co hown
      have := (Comp.overload_fold p (stack layers p) own co A_INSTANCE (by decide +kernel)).1
      rw [hnone] at this
      exact this.trans hown
    apply key
    cases (stack layers p).head? with
    | none => rfl
    | some m => simp only [get?]; rw [if_neg (by decide +kernel)]
  rw [ht]
  unfold firstTable
  rw [List.findSome?_cons, hown]
  obtain ⟨n, t, hs⟩ := List.exists_cons_of_ne_nil hne
  simp only
  rw [hs, List.findSome?_cons, hall n (by rw [hs]; simp)]

/-- C76: without instances, composing layers always succeeds, whatever the order of the nodes; and the
value of an attribute of the user is that of the nearest node in the lineage which has it in any layer, and
among its layers of the strongest: a weak layer of a near node decides before a strong layer of a far one. -/
theorem C76_layers {layers : List Comp.LayerNodes} (h : SpecNodes layers)
    (hno : ∀ l ∈ layers, ∀ p n, (p, n) ∈ l → get? "_instance".toList n = some .none) {order : List (Str × Nat)}
    (ho : order.Perm (classesOf layers).2) :
    ∃ g', postProxy (classesOf layers).2 order (classesOf layers).1 = some g' ∧
      ∀ ns c k b, Names ns → UserName b k → get? (render ns) (classesOf layers).2 = some c →
        g'.attr? c k = layered layers ns k := by
  obtain ⟨hL, hp, hpar, _, _⟩ := classesOf_ready h
  obtain ⟨_, hnode, htab, hkeys⟩ := classesOf_spec h
  obtain ⟨g', h1, h2, h3⟩ := C70_parents hL hp hpar order ho
  have hinst := layers_no_instance h hno
  have hlin : ∀ ns c, Names ns → (render ns, c) ∈ (classesOf layers).2 → g'.attr c A_INSTANCE = .none := by
    intro ns c hN hc
    unfold Classes.attr
    rw [h3 ns c A_INSTANCE hN hc]
    have : inherited (fun p => (get? p (classesOf layers).2).map (tablesOf (classesOf layers).1 (classesOf layers).1.bases))
        ns A_INSTANCE = some .none := by
      unfold inherited
      obtain ⟨t, ht⟩ := lineage_head ns
      rw [ht, List.findSome?_cons]
      simp only [get?_of_mem hL.ok hc, Option.map_some, Option.bind_some, hinst _ c hc]
    rw [this]; rfl
  refine ⟨g', ?_, ?_⟩
  · unfold postProxy
    rw [h1, Option.bind_some]
    refine instances_none order fun pc hpc s hs => ?_
    have hm := ho.mem_iff.1 hpc
    obtain ⟨ns, hN, he⟩ := hp pc.1 pc.2 hm
    rw [hlin ns pc.2 hN (by rw [← he]; exact hm)] at hs
    cases hs
  · intro ns c k b hN hk hc
    rw [h3 ns c k hN (mem_of_get? hc)]
    have hint : k ∉ internalNames := hk.2.1
    have hnodek : get? k ((classesOf layers).1.own 0) = none := by
      rw [hnode, get?_eq_none]
      intro hm
      have : ∀ x ∈ keys NODE_CLASS, x ∈ internalNames := by decide +kernel
      exact hint (this k hm)
    rw [hnodek, Option.or_none]
    unfold inherited layered
    congr 1
    funext q
    cases hg : get? (render q) (classesOf layers).2 with
    | none =>
      simp only [hg, (hkeys _).1 hg]
      rfl
    | some d =>
      simp only [hg]
      rw [Option.map_some, Option.bind_some, (htab _ d (mem_of_get? hg)).2]
      unfold firstTable
      rw [List.findSome?_cons, own_other]
      · intro hm
        have : ∀ x ∈ Comp.OVERLOAD, x ∈ internalNames := by decide +kernel
        exact hint (this k hm)
      · intro x _
        exact hk.2.2 "source".toList (by decide +kernel) x
      · rintro rfl; exact hint (by decide +kernel)
      · rintro rfl; exact hint (by decide +kernel)

/-! ## A concrete composition

Two layers.  The strong one has `/A/x` (an instance of `/B`), the weak one `/A/x`, `/A`, `/B` and the world. -/

/-- A spec node of the namespace, with its instance path, its code and further attributes. -/
def exInheritSpec (ns : List Str) (inst : Val) (code : Val) (more : Dict Str Val) : Dict Str Val :=
  [(A_NAME, .str (ns.getLast?.getD ['/'])), (A_PARENT, .str (parentText ns)), (A_INSTANCE, inst), (A_ENABLED, .none),
   (A_COMMENT, .none), (A_CODE, code)] ++ more

/-- The layers of the example; `inst` is the instance path of `/A/x`. -/
def exInheritLayers (inst : Val) : List Comp.LayerNodes :=
  [[(render [['A'], ['x']], exInheritSpec [['A'], ['x']] inst .none [])],
   [(render [['A'], ['x']], exInheritSpec [['A'], ['x']] .none .none [(['k'], .str "weak".toList)]),
    (render [['A']], exInheritSpec [['A']] .none .none [(['m'], .str "A".toList), (['n'], .str "A".toList)]),
    (render [['B']], exInheritSpec [['B']] .none (.list [.str "go".toList])
      [(['k'], .str "B".toList), (['n'], .str "B".toList), (['q'], .str "B".toList)]),
    (render [], exInheritSpec [] .none .none [(['q'], .str "world".toList)])]]

theorem exInheritLayers_ok (inst : Val) : SpecNodes (exInheritLayers inst) where
  ok := by
    intro l hl
    simp only [exInheritLayers, List.mem_cons, List.not_mem_nil, or_false] at hl
    rcases hl with rfl | rfl
    · simp [Dict.Ok, keys]
    · show List.Nodup [render [['A'], ['x']], render [['A']], render [['B']], render []]
      decide +kernel
  path := by
    intro l hl p n hm
    simp only [exInheritLayers, List.mem_cons, List.not_mem_nil, or_false] at hl
    have names : ∀ ns ∈ [[['A'], ['x']], [['A']], [['B']], []], Names ns := by
      intro ns h
      simp only [List.mem_cons, List.not_mem_nil, or_false] at h
      rcases h with rfl | rfl | rfl | rfl <;> (unfold Names IsName; decide +kernel)
    rcases hl with rfl | rfl <;> simp only [List.mem_cons, List.not_mem_nil, or_false, Prod.mk.injEq] at hm
    · exact ⟨_, names [['A'], ['x']] (by simp), hm.1⟩
    · rcases hm with ⟨rfl, _⟩ | ⟨rfl, _⟩ | ⟨rfl, _⟩ | ⟨rfl, _⟩
      · exact ⟨_, names [['A'], ['x']] (by simp), rfl⟩
      · exact ⟨_, names [['A']] (by simp), rfl⟩
      · exact ⟨_, names [['B']] (by simp), rfl⟩
      · exact ⟨_, names [] (by simp), rfl⟩
  parent := by
    intro l hl ns n hN hm
    simp only [exInheritLayers, List.mem_cons, List.not_mem_nil, or_false] at hl
    have names : ∀ ns ∈ [[['A'], ['x']], [['A']], [['B']], []], Names ns := by
      intro ns h
      simp only [List.mem_cons, List.not_mem_nil, or_false] at h
      rcases h with rfl | rfl | rfl | rfl <;> (unfold Names IsName; decide +kernel)
    have inj : ∀ ms ∈ [[['A'], ['x']], [['A']], [['B']], []], render ns = render ms → ns = ms := fun ms h e =>
      Path.render_inj hN (names ms h) e
    rcases hl with rfl | rfl <;> simp only [List.mem_cons, List.not_mem_nil, or_false, Prod.mk.injEq] at hm
    · rw [inj [['A'], ['x']] (by simp) hm.1, hm.2]; rfl
    · rcases hm with ⟨e, rfl⟩ | ⟨e, rfl⟩ | ⟨e, rfl⟩ | ⟨e, rfl⟩
      · rw [inj [['A'], ['x']] (by simp) e]; rfl
      · rw [inj [['A']] (by simp) e]; rfl
      · rw [inj [['B']] (by simp) e]; rfl
      · rw [inj [] (by simp) e]; rfl
  keys := by
    intro l hl p n hm a ha
    simp only [exInheritLayers, List.mem_cons, List.not_mem_nil, or_false] at hl
    have : ∀ ns inst code more, (get? a (exInheritSpec ns inst code more)).isSome := by
      intro ns inst code more
      simp only [List.map_cons, List.map_nil, List.mem_cons, List.not_mem_nil, or_false] at ha
      rcases ha with rfl | rfl | rfl | rfl <;> rfl
    rcases hl with rfl | rfl <;> simp only [List.mem_cons, List.not_mem_nil, or_false, Prod.mk.injEq] at hm
    · rw [hm.2]; exact this ..
    · rcases hm with ⟨_, rfl⟩ | ⟨_, rfl⟩ | ⟨_, rfl⟩ | ⟨_, rfl⟩ <;> exact this ..

/-- Read text attributes of a node after composing the layers; `none` is a failed composition. -/
def exInherit (layers : List Comp.LayerNodes) (p : Str) (ks : List Str) : Option (List (Option Str)) :=
  match postProxy (classesOf layers).2 (sortInstances (classesOf layers).2 (classesOf layers).2 (classesOf layers).1)
      (classesOf layers).1, get? p (classesOf layers).2 with
  | some g', some c => some (ks.map (fun k => asText (g'.attr c k)))
  | _, _ => none

/-- Without an instance (C70, C76): `k` from the weak layer of `/A/x`, `m` from `/A`, `q` from the world. -/
example : exInherit (exInheritLayers .none) "/A/x".toList [['k'], ['m'], ['n'], ['q'], ['z']] =
    some [some "weak".toList, some "A".toList, some "A".toList, some "world".toList, none] := by decide +kernel

/-- As an instance of `/B` (C71–C73): `k` stays local, the parent `/A` is stronger than `/B` for `n`, and `/B`
is stronger than the world for `q`. -/
example : exInherit (exInheritLayers (.str "/B".toList)) "/A/x".toList [['k'], ['m'], ['n'], ['q'], ['z']] =
    some [some "weak".toList, some "A".toList, some "A".toList, some "B".toList, none] := by decide +kernel

/-- An instance of its own parent or of a sibling's parent is no cycle; one of itself is (C74). -/
example : (exInherit (exInheritLayers (.str "/A".toList)) "/A/x".toList [['m']], exInherit (exInheritLayers (.str "/A/x".toList)) "/A/x".toList [['m']])
    = (some [some "A".toList], none) := by decide +kernel

/-- The code of an instance (C75). -/
example : (match postProxy (classesOf (exInheritLayers (.str "/B".toList))).2
      (sortInstances (classesOf (exInheritLayers (.str "/B".toList))).2 (classesOf (exInheritLayers (.str "/B".toList))).2
        (classesOf (exInheritLayers (.str "/B".toList))).1) (classesOf (exInheritLayers (.str "/B".toList))).1,
      get? "/A/x".toList (classesOf (exInheritLayers (.str "/B".toList))).2 with
    | some g', some c => names (g'.attr c A_CODE)
    | _, _ => none) = some ["go".toList] := by decide +kernel

/-- C75, what does not hold: the recorded source of the code names the layer of the instance source but the
path of the instance, where that layer need not have a node at all. -/
theorem C75_source_violation :
    let layers : List Comp.LayerNodes :=
      [[(render [['x']], exInheritSpec [['x']] (.str "/B".toList) .none [(A_SOURCE_LAYER, .str "strong".toList)])],
       [(render [['B']], exInheritSpec [['B']] .none (.list [.str "go".toList]) [(A_SOURCE_LAYER, .str "weak".toList)])]]
    (match postProxy (classesOf layers).2 (sortInstances (classesOf layers).2 (classesOf layers).2 (classesOf layers).1)
        (classesOf layers).1, get? "/x".toList (classesOf layers).2 with
      | some g', some c => match g'.attr c (A_CODE ++ M_SOURCE) with
        | .src l p => some (l, p)
        | _ => none
      | _, _ => none) = some (some "weak".toList, "/x".toList) ∧
    (layers[1]?.bind (get? "/x".toList)).isNone := by decide +kernel

/-! ## C77 -/

/-- C77: if what is instanced is always plain (neither an instance itself nor below one), composing always
succeeds, whatever the order of the nodes.  Missing: other graphs without cycles, for which it may fail
(`C77_conflict_violation`). -/
theorem C77_plain_sources_partial {g : Classes} {nodes : Dict Str Nat} {specs : Nat → List Nat}
    (h : Laid g nodes specs (fun _ => []))
    (hp : ∀ p c, (p, c) ∈ nodes → ∃ ns, Names ns ∧ p = render ns)
    (hpar : ∀ ns c, Names ns → (render ns, c) ∈ nodes →
      firstTable A_PARENT (tablesOf g specs c) = some (.str (parentText ns)))
    (hins : ∀ p c, (p, c) ∈ nodes → (firstTable A_INSTANCE (tablesOf g specs c)).isSome)
    (hplain : ∀ p c b, (p, c) ∈ nodes → instSource g nodes specs c = some b → Plain g nodes specs b)
    {order : List (Str × Nat)} (ho : order.Perm nodes) : ∃ g', postProxy nodes order g = some g' := by
  have hnd : order.Nodup := ho.nodup_iff.2 ((List.pairwise_map.1 h.ok).imp fun hne he => hne (congrArg Prod.fst he))
  obtain ⟨g1, h1, h2, h3, links1, h4, h5⟩ := parents_fold (g0 := g) hp hpar order [] g
    (fun x hx => ho.mem_iff.1 hx) (by simpa using hnd) ⟨rfl, rfl, _, h, fun ns c _ _ => by simp⟩
  have hlinks : ∀ ns c, Names ns → (render ns, c) ∈ nodes → links1 c = (nearestAbove nodes ns).toList := by
    intro ns c hN hc
    rw [h5 ns c hN hc, if_pos (by simpa using ho.mem_iff.2 hc)]
  have ht : tablesOf g1 specs = tablesOf g specs := by funext d; unfold tablesOf; rw [h2]
  have hi : instSource g1 nodes specs = instSource g nodes specs := by
    funext c; unfold instSource; rw [ht]
  obtain ⟨g', _, hg', _⟩ := plain_fold (g1 := g1) (P := Plain g nodes specs) hp (by rw [ht]; exact hins) order [] g1 links1
    (fun x hx => ho.mem_iff.1 hx) (by simpa using hnd)
    ⟨h4, fun _ _ _ => rfl, by
      rw [hi]
      refine ⟨fun c hc => hc.1, fun ns c a hN hc hP hn => ?_, fun p c b hc hb => ⟨hplain p c b hc hb, instSource_mem hb⟩,
        fun ns c hN hc => Or.inl (hlinks ns c hN hc)⟩
      have hca : Draws g nodes specs c a := .one (.parent hN hc hn)
      exact ⟨hP.2 a hca, fun d hd => hP.2 d (Draws.trans hca hd)⟩, fun ns c hN hc _ => hlinks ns c hN hc, fun _ _ _ _ h => nomatch h⟩
  exact ⟨g', by unfold postProxy; rw [h1, Option.bind_some, hg']⟩

/-- One layer with the world and nodes given by namespace and instance path. -/
def exInstLayer (l : List (List String × String)) : List Comp.LayerNodes :=
  [(render [], exInheritSpec [] .none .none []) :: l.map (fun n =>
    (render (n.1.map String.toList), exInheritSpec (n.1.map String.toList)
      (if n.2 = "" then .none else .str n.2.toList) .none []))]

/-- A graph in which every node has a greater rank than those it takes from has no cycle. -/
theorem no_cycle {g : Classes} {nodes : Dict Str Nat} {specs : Nat → List Nat} (rank : Nat → Nat)
    (hr : ∀ c b, TakesFrom g nodes specs c b → rank b < rank c) (c : Nat) : ¬ Draws g nodes specs c c := by
  have : ∀ a b, Draws g nodes specs a b → rank b < rank a := by
    intro a b h
    induction h with
    | one h => exact hr _ _ h
    | more h _ ih => exact Nat.lt_trans ih (hr _ _ h)
  intro h
  exact Nat.lt_irrefl _ (this c c h)

/-- The nodes of the conflict: `/C/p` takes from `/A` before `/B`, `/D/q` from `/B` before `/A`, and `/C/p/x` is
below the one and an instance of the other (`x`). -/
def exConflict (x : String) : List Comp.LayerNodes :=
  exInstLayer [(["A"], ""), (["B"], ""), (["C"], "/A"), (["C", "p"], "/B"), (["D"], "/B"),
    (["D", "q"], "/A"), (["C", "p", "x"], x)]

/-- C77, what does not hold: a graph without cycles whose composition fails.  Without the last instance it
succeeds. -/
theorem C77_conflict_violation :
    (∀ c, ¬ Draws (classesOf (exConflict "/D/q")).1 (classesOf (exConflict "/D/q")).2
      (classesOf (exConflict "/D/q")).1.bases c c) ∧
    exInherit (exConflict "/D/q") "/".toList [] = none ∧
    exInherit (exConflict "") "/".toList [] = some [] := by
  refine ⟨?_, by decide +kernel, by decide +kernel⟩
  let L : List (List Str) := [[], [['A']], [['B']], [['C']], [['C'], ['p']], [['D']], [['D'], ['q']], [['C'], ['p'], ['x']]]
  have hall : ∀ e ∈ (classesOf (exConflict "/D/q")).2, ∃ ns ∈ L, e.1 = render ns := by decide +kernel
  have hnames : ∀ ns ∈ L, Names ns := by unfold Names IsName; decide +kernel
  have hcheck : ∀ ns ∈ L, ∀ e ∈ (classesOf (exConflict "/D/q")).2, e.1 = render ns →
      (nearestAbove (classesOf (exConflict "/D/q")).2 ns).all (fun b => decide (b < e.2)) = true ∧
      (instSource (classesOf (exConflict "/D/q")).1 (classesOf (exConflict "/D/q")).2
        (classesOf (exConflict "/D/q")).1.bases e.2).all (fun b => decide (b < e.2)) = true := by decide +kernel
  apply no_cycle id
  intro c b h
  cases h with
  | @parent ns _ _ hN hc hn =>
    obtain ⟨ms, hm, he⟩ := hall _ hc
    have := Path.render_inj hN (hnames ms hm) he
    subst this
    have := (hcheck ns hm _ hc rfl).1
    rw [hn] at this
    simpa using this
  | @«instance» p _ _ hc hn =>
    obtain ⟨ms, hm, he⟩ := hall _ hc
    have := (hcheck ms hm _ hc he).2
    rw [hn] at this
    simpa using this

/-- Sources which are plain (C77): siblings, a node inside another tree, a nephew. -/
example : exInherit (exInstLayer [(["A"], ""), (["A", "u"], ""), (["C"], "/A"), (["C", "p"], "/A/u"), (["D"], "/A/u"),
    (["D", "q"], "/A")]) "/D/q".toList [] = some [] := by decide +kernel

end Nxt.Props
