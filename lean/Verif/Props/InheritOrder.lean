import Verif.Props.InheritLayers
import Verif.Lemmas.InheritTwin
import Verif.Spec.InheritOrder
/-!
# Property C127: the order of the nodes in the layers
-/
namespace Nxt.Props
open Dict NodeData Mro Inherit Spec

/-! ## Layers saying the same -/

theorem Reordered.same {a b : List Comp.LayerNodes} (h : Reordered a b) (ha : ∀ l ∈ a, Dict.Ok l) : SameOpinions a b := by
  intro p
  induction h with
  | nil => rfl
  | @cons l l' ls ls' hp _ ih =>
    unfold stack at ih ⊢
    rw [List.filterMap_cons, List.filterMap_cons, ih fun x hx => ha x (List.mem_cons_of_mem _ hx),
      get?_perm (ha l List.mem_cons_self) hp]

theorem Reordered.mem {a b : List Comp.LayerNodes} (h : Reordered a b) {l' : Comp.LayerNodes} (hl : l' ∈ b) :
    ∃ l ∈ a, l.Perm l' := by
  induction h with
  | nil => cases hl
  | @cons l m ls ls' hp _ ih =>
    rcases List.mem_cons.1 hl with rfl | hl
    · exact ⟨l, List.mem_cons_self, hp⟩
    · obtain ⟨l1, h1, h2⟩ := ih hl
      exact ⟨l1, List.mem_cons_of_mem _ h1, h2⟩

theorem Reordered.specNodes {a b : List Comp.LayerNodes} (h : Reordered a b) (ha : SpecNodes a) : SpecNodes b where
  ok := fun l' hl => by
    obtain ⟨l, h1, h2⟩ := Reordered.mem h hl
    exact ((h2.map Prod.fst).nodup_iff).1 (ha.ok l h1)
  path := fun l' hl p n hm => by
    obtain ⟨l, h1, h2⟩ := Reordered.mem h hl
    exact ha.path l h1 p n (h2.mem_iff.2 hm)
  parent := fun l' hl ns n hN hm => by
    obtain ⟨l, h1, h2⟩ := Reordered.mem h hl
    exact ha.parent l h1 ns n hN (h2.mem_iff.2 hm)
  keys := fun l' hl p n hm => by
    obtain ⟨l, h1, h2⟩ := Reordered.mem h hl
    exact ha.keys l h1 p n (h2.mem_iff.2 hm)

/-- The classes made from layers saying the same are the same up to their numbers. -/
theorem twins_of {a b : List Comp.LayerNodes} (ha : SpecNodes a) (hb : SpecNodes b) (hs : SameOpinions a b) :
    Twins (classesOf a).1 (classesOf b).1 (classesOf a).2 (classesOf b).2 (classesOf a).1.bases (classesOf b).1.bases ∧
    (∀ p c c', (p, c) ∈ (classesOf a).2 → (p, c') ∈ (classesOf b).2 →
      tablesOf (classesOf a).1 (classesOf a).1.bases c = tablesOf (classesOf b).1 (classesOf b).1.bases c') ∧
    (classesOf a).1.own 0 = (classesOf b).1.own 0 := by
  obtain ⟨h1, h2, h3, h4⟩ := classesOf_spec ha
  obtain ⟨k1, k2, k3, k4⟩ := classesOf_spec hb
  have hp : ∀ p, (get? p (classesOf a).2).isSome = (get? p (classesOf b).2).isSome := by
    intro p
    have := h4 p
    rw [hs p, ← k4 p] at this
    cases e : get? p (classesOf a).2 <;> cases e' : get? p (classesOf b).2 <;> simp_all
  have ht : ∀ p c c', (p, c) ∈ (classesOf a).2 → (p, c') ∈ (classesOf b).2 →
      tablesOf (classesOf a).1 (classesOf a).1.bases c = tablesOf (classesOf b).1 (classesOf b).1.bases c' := by
    intro p c c' hc hc'
    rw [(h3 p c hc).2, (k3 p c' hc').2, hs p]
  refine ⟨⟨h1, k1, hp, fun p c c' hc hc' => ?_, fun p c c' hc hc' => ?_⟩, ht, by rw [h2, k2]⟩
  · have := congrArg List.length (ht p c c' hc hc')
    simpa [tablesOf] using this
  · unfold instSource
    rw [ht p c c' hc hc']
    split
    · split
      · exact .none
      · exact twin_both hp _
    · exact .none

/-! ## C127 -/

/-- C127: the composition depends only on what the layers say about each path, not on the order in which the nodes
stand in them, nor on the order in which the nodes are composed.  If both compositions succeed, there are the same nodes,
each takes from the same nodes, and each has the same value of every attribute not composed by the instance arc (for
those see `C127_composed_partial`).  Missing: that one succeeds if the other does, which is not so
(`C127_success_violation`). -/
theorem C127_opinions_partial {a b : List Comp.LayerNodes} (ha : SpecNodes a) (hb : SpecNodes b) (hs : SameOpinions a b)
    {order order' : List (Str × Nat)} (ho : order.Perm (classesOf a).2) (ho' : order'.Perm (classesOf b).2)
    {g g' : Classes} (hg : postProxy (classesOf a).2 order (classesOf a).1 = some g)
    (hg' : postProxy (classesOf b).2 order' (classesOf b).1 = some g') :
    (∀ p, (get? p (classesOf a).2).isSome = (get? p (classesOf b).2).isSome) ∧
    ∀ p c c', get? p (classesOf a).2 = some c → get? p (classesOf b).2 = some c' →
      (∀ q d d', get? q (classesOf a).2 = some d → get? q (classesOf b).2 = some d' →
        (d ∈ (g.mro c).getD [] ↔ d' ∈ (g'.mro c').getD [])) ∧
      ∀ k, Untouched k → g.attr? c k = g'.attr? c' k := by
  obtain ⟨ht, htab, hroot⟩ := twins_of ha hb hs
  obtain ⟨h1, h2, h3, h4, _⟩ := classesOf_ready ha
  obtain ⟨k1, k2, k3, k4, _⟩ := classesOf_ready hb
  obtain ⟨links, l1, l2, l3, l4⟩ := postProxy_done h1 h2 h3 h4 ho hg
  obtain ⟨links', m1, m2, m3, m4⟩ := postProxy_done k1 k2 k3 k4 ho' hg'
  refine ⟨ht.paths, fun p c c' hc hc' => ?_⟩
  have hc := mem_of_get? hc
  have hc' := mem_of_get? hc'
  obtain ⟨l, hl⟩ := l2 p c hc
  obtain ⟨l', hl'⟩ := m2 p c' hc'
  have he := twin_orders ht h2 l1 l2 l4 m1 m2 m4 hl c' l' (.comp hc hc') hl'
  have e1 := (Laid.mro_iff l1 (l1.comp p c hc).2.1).2 hl
  have e2 := (Laid.mro_iff m1 (m1.comp p c' hc').2.1).2 hl'
  refine ⟨fun q d d' hd hd' => ?_, fun k hk => ?_⟩
  · rw [e1, e2]
    exact he.mem_iff (twin_oneToOne l1 m1) (.comp (mem_of_get? hd) (mem_of_get? hd'))
  · unfold Classes.attr?
    rw [e1, e2, Option.bind_some, Option.bind_some]
    have hk' := untouched hk
    refine findSome?_each he fun d d' hdd => ?_
    rw [l3 d k hk', m3 d' k hk', twin_own (S := Eq) hroot (fun p c c' hc hc' => by
      rw [htab p c c' hc hc']; exact each_refl (fun _ => rfl) _) hdd]

theorem chosen_twin {g g' : Classes} {nodes nodes' : Dict Str Nat} {specs specs' : Nat → List Nat}
    (h : Twins g g' nodes nodes' specs specs') {x : Str} {S : Val → Val → Prop}
    (hS : ∀ v w, S v w → v.hasOpinion = w.hasOpinion)
    (hx : ∀ p c c', (p, c) ∈ nodes → (p, c') ∈ nodes' →
      Both S (firstTable x (tablesOf g specs c)) (firstTable x (tablesOf g' specs' c')))
    {c : Nat} {v : Val} (hv : Chosen g nodes specs x c v) :
    ∀ p c', (p, c) ∈ nodes → (p, c') ∈ nodes' → ∃ w, Chosen g' nodes' specs' x c' w ∧ S v w := by
  have get : ∀ {p c c'} {v : Val}, (p, c) ∈ nodes → (p, c') ∈ nodes' → firstTable x (tablesOf g specs c) = some v →
      ∃ w, firstTable x (tablesOf g' specs' c') = some w ∧ S v w := by
    intro p c c' v hc hc' hv
    have := hx p c c' hc hc'
    rw [hv] at this
    generalize firstTable x (tablesOf g' specs' c') = y at this
    cases this with
    | some h => exact ⟨_, rfl, h⟩
  induction hv with
  | here h1 h2 =>
    intro p c' hc hc'
    obtain ⟨w, h3, h4⟩ := get hc hc' h1
    exact ⟨w, .here h3 (by rw [← hS _ _ h4]; exact h2), h4⟩
  | last h1 h2 =>
    intro p c' hc hc'
    obtain ⟨w, h3, h4⟩ := get hc hc' h1
    refine ⟨w, .last h3 ?_, h4⟩
    have := h.source _ _ _ hc hc'
    rw [h2] at this
    generalize instSource g' nodes' specs' c' = y at this
    cases this; rfl
  | next h1 h2 h3 _ ih =>
    intro p c' hc hc'
    obtain ⟨w, h4, h5⟩ := get hc hc' h1
    have h6 : w.hasOpinion = false := by rw [← hS _ _ h5]; exact h2
    obtain ⟨q, hq⟩ := instSource_mem h3
    have hi := h.source _ _ _ hc hc'
    rw [h3] at hi
    generalize hy : instSource g' nodes' specs' c' = y at hi
    cases hi with
    | @some _ b' hbb =>
      have := h.both q
      rw [get?_of_mem h.left.ok hq] at this
      generalize hz : get? q nodes' = z at this
      cases this with
      | some hz' =>
        obtain ⟨w', h7, h8⟩ := ih q b' hq (by
          rw [← Twin.unique h.left h.right hz' hbb]
          exact mem_of_get? hz)
        exact ⟨w', .next h4 h6 hy h7, h8⟩

/-- The instance path of the world is none of the paths the layers do not give it. -/
theorem world_instance {layers : List Comp.LayerNodes} (h : SpecNodes layers)
    (hw : ∀ n ∈ stack layers ['/'], get? "_instance".toList n ≠ some (.str ['/'])) :
    ∀ c, (['/'], c) ∈ (classesOf layers).2 →
      firstTable A_INSTANCE (tablesOf (classesOf layers).1 (classesOf layers).1.bases c) ≠ some (.str ['/']) := by
  intro c hc he
  obtain ⟨hne, ht⟩ := (classesOf_spec h).2.2.1 _ c hc
  rw [ht] at he
  unfold firstTable at he
  rw [List.findSome?_cons] at he
  have hown : ∀ v, get? A_INSTANCE (Comp.compNode ['/'] (stack layers ['/'])).own = some v →
      ∃ n ∈ stack layers ['/'], getAttr n A_INSTANCE = v := by
    intro v hv
    unfold Comp.compNode at hv
    simp only at hv
    rw [get?_set, if_neg (by decide +kernel)] at hv
    have key : ∀ own co, get? A_INSTANCE own = none →
        get? A_INSTANCE ((stack layers ['/']).reverse.foldl (Comp.overloadBase ['/']) (own, co)).1 = some v →
        ∃ n ∈ stack layers ['/'], getAttr n A_INSTANCE = v := by
      intro own co hown hv
      have hf := (Comp.overload_fold ['/'] (stack layers ['/']) own co A_INSTANCE (by decide +kernel)).1
      rw [hf] at hv
      cases hst : strongest (stack layers ['/']) A_INSTANCE with
      | some n =>
        rw [hst] at hv
        exact ⟨n, List.mem_of_find?_eq_some hst, Option.some.inj hv⟩
      | none =>
        rw [hst] at hv
        simp only [hown] at hv
        cases hv
    refine key _ _ ?_ hv
    cases (stack layers ['/']).head? with
    | none => rfl
    | some m => simp only [get?]; rw [if_neg (by decide +kernel)]
  cases hg : get? A_INSTANCE (Comp.compNode ['/'] (stack layers ['/'])).own with
  | some v =>
    rw [hg] at he
    simp only [Option.some.injEq] at he
    subst he
    obtain ⟨n, hn, hv⟩ := hown _ hg
    refine hw n hn ?_
    obtain ⟨l, hl, hm⟩ := mem_stack hn
    obtain ⟨w, hq⟩ := Option.isSome_iff_exists.1 (h.keys l hl _ n hm "_instance".toList (by decide +kernel))
    rw [show A_INSTANCE = "_instance".toList from rfl, getAttr_of_get? hq] at hv
    rw [hq, hv]
  | none =>
    rw [hg] at he
    simp only at he
    obtain ⟨n, hn, hv⟩ := List.exists_of_findSome?_eq_some he
    exact hw n hn hv

/-- C127: the enabled state, the comment and the code of every node do not depend on the order of the nodes in the
layers either, when the nodes are composed in the order of `sort_instances` and both compositions succeed.  Missing as
above. -/
theorem C127_composed_partial {a b : List Comp.LayerNodes} (ha : SpecNodes a) (hb : SpecNodes b) (hs : SameOpinions a b)
    (hw : ∀ n ∈ stack a ['/'], get? "_instance".toList n ≠ some (.str ['/']))
    {table table' : List (Str × Nat)} (ht : table.Perm (classesOf a).2) (ht' : table'.Perm (classesOf b).2) {g g' : Classes}
    (hg : postProxy (classesOf a).2 (sortInstances (classesOf a).2 table (classesOf a).1) (classesOf a).1 = some g)
    (hg' : postProxy (classesOf b).2 (sortInstances (classesOf b).2 table' (classesOf b).1) (classesOf b).1 = some g')
    {p : Str} {c c' : Nat} (hc : get? p (classesOf a).2 = some c) (hc' : get? p (classesOf b).2 = some c') {x : Str}
    (hx : x ∈ ["_enabled".toList, "_comment".toList, "_code".toList]) : g.attr c x = g'.attr c' x := by
  obtain ⟨htw, htab, _⟩ := twins_of ha hb hs
  obtain ⟨h1, h2, h3, h4, h5⟩ := classesOf_ready ha
  obtain ⟨k1, k2, k3, k4, k5⟩ := classesOf_ready hb
  have c1 := C75_composed_partial h1 h2 h3 h4 (world_instance ha hw) ht hg hx (h5 x hx) (mem_of_get? hc)
  have c2 := C75_composed_partial k1 k2 k3 k4 (world_instance hb (by rw [← hs]; exact hw)) ht' hg' hx (k5 x hx)
    (mem_of_get? hc')
  obtain ⟨w, h6, h7⟩ := chosen_twin htw (S := Eq) (fun _ _ h => by rw [h]) (fun p c c' hc hc' => by
    rw [htab p c c' hc hc']
    generalize firstTable x _ = y
    cases y with
    | none => exact .none
    | some v => exact .some rfl) c1 p c' (mem_of_get? hc) (mem_of_get? hc')
  rw [h7]
  exact Chosen.unique h6 c2

theorem takes_twin {g g' : Classes} {nodes nodes' : Dict Str Nat} {specs specs' : Nat → List Nat}
    (h : Twins g g' nodes nodes' specs specs') {c b : Nat} (ht : TakesFrom g nodes specs c b) {c' : Nat}
    (hc : ∃ p, (p, c) ∈ nodes ∧ (p, c') ∈ nodes') :
    ∃ b', TakesFrom g' nodes' specs' c' b' ∧ ∃ q, (q, b) ∈ nodes ∧ (q, b') ∈ nodes' := by
  obtain ⟨p, hc, hc'⟩ := hc
  have back : ∀ {b b' : Nat} {q q' : Str}, (q, b) ∈ nodes → (q', b') ∈ nodes' → Twin nodes nodes' specs specs' b b' →
      ∃ r, (r, b) ∈ nodes ∧ (r, b') ∈ nodes' := by
    intro b b' q q' hq hq' ht
    have := h.both q
    rw [get?_of_mem h.left.ok hq] at this
    generalize hz : get? q nodes' = z at this
    cases this with
    | some hz' =>
      refine ⟨q, hq, ?_⟩
      rw [← Twin.unique h.left h.right hz' ht]
      exact mem_of_get? hz
  cases ht with
  | @parent ns _ _ hN hcn hnear =>
    obtain rfl := h.left.inj _ _ _ hc hcn
    have := h.near ns
    rw [hnear] at this
    generalize hz : nearestAbove nodes' ns = z at this
    cases this with
    | @some _ b' hbb =>
      obtain ⟨q, _, _, hq, _⟩ := nearestAbove_mem hN hnear
      obtain ⟨q', _, _, hq', _⟩ := nearestAbove_mem hN hz
      exact ⟨b', .parent hN hc' hz, back hq hq' hbb⟩
  | @«instance» p1 _ _ hcn hi =>
    obtain rfl := h.left.inj _ _ _ hc hcn
    have := h.source _ _ _ hc hc'
    rw [hi] at this
    generalize hz : instSource g' nodes' specs' c' = z at this
    cases this with
    | @some _ b' hbb =>
      obtain ⟨q, hq⟩ := instSource_mem hi
      obtain ⟨q', hq'⟩ := instSource_mem hz
      exact ⟨b', .instance hc' hz, back hq hq' hbb⟩

theorem draws_twin {g g' : Classes} {nodes nodes' : Dict Str Nat} {specs specs' : Nat → List Nat}
    (h : Twins g g' nodes nodes' specs specs') {c b : Nat} (ht : Draws g nodes specs c b) : ∀ {c' : Nat},
    (∃ p, (p, c) ∈ nodes ∧ (p, c') ∈ nodes') →
    ∃ b', Draws g' nodes' specs' c' b' ∧ ∃ q, (q, b) ∈ nodes ∧ (q, b') ∈ nodes' := by
  induction ht with
  | one ht =>
    intro c' hc
    obtain ⟨b', h1, h2⟩ := takes_twin h ht hc
    exact ⟨b', .one h1, h2⟩
  | more ht _ ih =>
    intro c' hc
    obtain ⟨b', h1, h2⟩ := takes_twin h ht hc
    obtain ⟨a', h3, h4⟩ := ih h2
    exact ⟨a', .more h1 h3, h4⟩

theorem plain_twin {g g' : Classes} {nodes nodes' : Dict Str Nat} {specs specs' : Nat → List Nat}
    (h : Twins g g' nodes nodes' specs specs') {c c' : Nat} (hP : Plain g nodes specs c)
    (hc : ∃ p, (p, c) ∈ nodes ∧ (p, c') ∈ nodes') : Plain g' nodes' specs' c' := by
  have none : ∀ {d d' : Nat}, (∃ p, (p, d) ∈ nodes ∧ (p, d') ∈ nodes') → instSource g nodes specs d = none →
      instSource g' nodes' specs' d' = none := by
    rintro d d' ⟨p, h1, h2⟩ hn
    have := h.source _ _ _ h1 h2
    rw [hn] at this
    generalize instSource g' nodes' specs' d' = z at this
    cases this; rfl
  refine ⟨none hc hP.1, fun d' hd' => ?_⟩
  obtain ⟨p, h1, h2⟩ := hc
  obtain ⟨d, h3, q, h4, h5⟩ := draws_twin h.symm hd' ⟨p, h2, h1⟩
  exact none ⟨q, h5, h4⟩ (hP.2 d h3)

/-- If what is instanced is always plain in one of two compositions of the same nodes, it is in the other. -/
theorem plain_sources {g g' : Classes} {nodes nodes' : Dict Str Nat} {specs specs' : Nat → List Nat}
    (ht : Twins g g' nodes nodes' specs specs')
    (hplain : ∀ p c d, get? p nodes = some c → instSource g nodes specs c = some d → Plain g nodes specs d) :
    ∀ p c d, (p, c) ∈ nodes' → instSource g' nodes' specs' c = some d → Plain g' nodes' specs' d := by
  intro p c d hc hd
  have hb := ht.symm.both p
  rw [get?_of_mem ht.right.ok hc] at hb
  generalize hz : get? p nodes = z at hb
  cases hb with
  | @some _ c0 _ =>
    have hi := ht.source _ _ _ (mem_of_get? hz) hc
    rw [hd] at hi
    generalize hy : instSource g nodes specs c0 = y at hi
    cases hi with
    | @some d1 _ hdd =>
      have hP := hplain p c0 d1 hz hy
      obtain ⟨q1, hq1⟩ := instSource_mem hy
      refine plain_twin ht hP ⟨q1, hq1, ?_⟩
      have := ht.both q1
      rw [get?_of_mem ht.left.ok hq1] at this
      generalize hu : get? q1 nodes' = u at this
      cases this with
      | some hu' =>
        rw [← Twin.unique ht.left ht.right hu' hdd]
        exact mem_of_get? hu

/-- C127: if what is instanced is always plain (neither an instance itself nor below one), every order of the nodes in
the layers composes, and to the same: the same attributes, and with the order of `sort_instances` the same enabled state,
comment and code. -/
theorem C127_plain {a b : List Comp.LayerNodes} (ha : SpecNodes a) (hr : Reordered a b)
    (hplain : ∀ p c d, get? p (classesOf a).2 = some c →
      instSource (classesOf a).1 (classesOf a).2 (classesOf a).1.bases c = some d →
      Plain (classesOf a).1 (classesOf a).2 (classesOf a).1.bases d)
    (hw : ∀ n ∈ stack a ['/'], get? "_instance".toList n ≠ some (.str ['/'])) :
    ∃ g g', postProxy (classesOf a).2 (sortInstances (classesOf a).2 (classesOf a).2 (classesOf a).1) (classesOf a).1 = some g ∧
      postProxy (classesOf b).2 (sortInstances (classesOf b).2 (classesOf b).2 (classesOf b).1) (classesOf b).1 = some g' ∧
      ∀ p c c', get? p (classesOf a).2 = some c → get? p (classesOf b).2 = some c' →
        ∀ k, (Untouched k ∨ k ∈ ["_enabled".toList, "_comment".toList, "_code".toList]) → g.attr c k = g'.attr c' k := by
  have hs := Reordered.same hr ha.ok
  have hb := Reordered.specNodes hr ha
  have ht := (twins_of ha hb hs).1
  obtain ⟨h1, h2, h3, h4, _⟩ := classesOf_ready ha
  obtain ⟨k1, k2, k3, k4, _⟩ := classesOf_ready hb
  have hp1 : (sortInstances (classesOf a).2 (classesOf a).2 (classesOf a).1).Perm (classesOf a).2 := (C16_stable_sort _ _).1
  have hp2 : (sortInstances (classesOf b).2 (classesOf b).2 (classesOf b).1).Perm (classesOf b).2 := (C16_stable_sort _ _).1
  obtain ⟨g, hg⟩ := C77_plain_sources_partial h1 h2 h3 h4
    (fun p c d hc hd => hplain p c d (get?_of_mem h1.ok hc) hd) hp1
  obtain ⟨g', hg'⟩ := C77_plain_sources_partial k1 k2 k3 k4
    (plain_sources ht hplain) hp2
  refine ⟨g, g', hg, hg', fun p c c' hc hc' k hk => ?_⟩
  rcases hk with hk | hk
  · have := ((C127_opinions_partial ha hb hs hp1 hp2 hg hg').2 p c c' hc hc').2 k hk
    unfold Classes.attr
    rw [this]
  · exact C127_composed_partial ha hb hs hw (List.Perm.refl _) (List.Perm.refl _) hg hg' hc hc' hk

/-! ## Examples -/

/-- The nodes of `exOrder`, in this order or with `/q` in front. -/
def exOrder (first : Bool) : List Comp.LayerNodes :=
  exInstLayer (if first then [(["q"], "/p/x"), (["p"], ""), (["p", "c"], "/q/b"), (["p", "x"], ""), (["q", "b"], "")]
    else [(["p"], ""), (["p", "c"], "/q/b"), (["p", "x"], ""), (["q"], "/p/x"), (["q", "b"], "")])

theorem exOrder_reordered : Reordered (exOrder true) (exOrder false) := by
  refine .cons ?_ .nil
  refine List.Perm.cons _ ?_
  simp only [if_true, Bool.false_eq_true, if_false, List.map_cons, List.map_nil]
  exact (List.perm_middle (l₁ := [_, _, _]) (l₂ := [_])).symm

/-- C127, what does not hold: the order of the nodes in a layer decides whether the composition fails.  `/p/c` is an
instance of `/q/b`, whose parent `/q` is an instance of `/p/x`; both instances are one step from their source, so
`sort_instances` leaves them in the order of the layer.  If `/q` comes first, `/p` is found among what `/q/b` takes from
and is dropped as a base of `/p/c`; otherwise `/p` stays in front of `/q/b`, and when `/q` comes to take from `/p/x` there is
no order any more. -/
theorem C127_success_violation :
    Reordered (exOrder true) (exOrder false) ∧
    (exInherit (exOrder true) "/".toList []).isSome = true ∧ (exInherit (exOrder false) "/".toList []).isSome = false :=
  ⟨exOrder_reordered, by decide +kernel, by decide +kernel⟩

/-- Nodes are plain if none of them is an instance and each is right below another of them. -/
theorem plain_closed {g : Classes} {nodes : Dict Str Nat} {specs : Nat → List Nat} (s : Nat → Bool) (L : List (List Str))
    (hnames : ∀ ns ∈ L, Names ns) (hall : ∀ e ∈ nodes, ∃ ns ∈ L, e.1 = render ns)
    (hcheck : ∀ ns ∈ L, ∀ e ∈ nodes, e.1 = render ns → s e.2 = true →
      instSource g nodes specs e.2 = none ∧ (nearestAbove nodes ns).all s = true) {c : Nat} (hc : ∃ p, (p, c) ∈ nodes)
    (hs : s c = true) : Plain g nodes specs c := by
  have hnone : ∀ {c : Nat}, (∃ p, (p, c) ∈ nodes) → s c = true → instSource g nodes specs c = none := by
    rintro c ⟨p, hc⟩ hs
    obtain ⟨ns, hm, he⟩ := hall _ hc
    exact (hcheck ns hm _ hc he hs).1
  have htake : ∀ {c b : Nat}, TakesFrom g nodes specs c b → s c = true → (∃ p, (p, b) ∈ nodes) ∧ s b = true := by
    intro c b ht hs
    cases ht with
    | @parent ns _ _ hN hc hn =>
      obtain ⟨ms, hm, he⟩ := hall _ hc
      have := Path.render_inj hN (hnames ms hm) he
      subst this
      obtain ⟨q, _, _, hq, _⟩ := nearestAbove_mem hN hn
      have := (hcheck ns hm _ hc rfl hs).2
      rw [hn] at this
      exact ⟨⟨_, hq⟩, by simpa using this⟩
    | @«instance» p _ _ hc hi =>
      rw [hnone ⟨p, hc⟩ hs] at hi; cases hi
  have hdraw : ∀ {c b : Nat}, Draws g nodes specs c b → s c = true → (∃ p, (p, b) ∈ nodes) ∧ s b = true := by
    intro c b hd
    induction hd with
    | one ht => exact htake ht
    | more ht _ ih => intro hs; exact ih (htake ht hs).2
  exact ⟨hnone hc hs, fun d hd => hnone (hdraw hd hs).1 (hdraw hd hs).2⟩

/-- The layers of `exInheritLayers`, the second with its nodes the other way round. -/
def exReversed : List Comp.LayerNodes :=
  [(exInheritLayers (.str "/B".toList))[0]!, (exInheritLayers (.str "/B".toList))[1]!.reverse]

/-- What C127_plain asks for is met by a composition with an instance, and the values are those expected. -/
example : ∃ g g', postProxy (classesOf (exInheritLayers (.str "/B".toList))).2
      (sortInstances (classesOf (exInheritLayers (.str "/B".toList))).2 (classesOf (exInheritLayers (.str "/B".toList))).2
        (classesOf (exInheritLayers (.str "/B".toList))).1) (classesOf (exInheritLayers (.str "/B".toList))).1 = some g ∧
    postProxy (classesOf exReversed).2 (sortInstances (classesOf exReversed).2 (classesOf exReversed).2
      (classesOf exReversed).1) (classesOf exReversed).1 = some g' ∧
    ∀ p c c', get? p (classesOf (exInheritLayers (.str "/B".toList))).2 = some c → get? p (classesOf exReversed).2 = some c' →
      ∀ k, (Untouched k ∨ k ∈ ["_enabled".toList, "_comment".toList, "_code".toList]) → g.attr c k = g'.attr c' k := by
  refine C127_plain (exInheritLayers_ok _) (.cons (List.Perm.refl _) (.cons (List.reverse_perm _).symm .nil)) ?_ ?_
  · intro p c d hc hd
    let L : List (List Str) := [[], [['A']], [['B']], [['A'], ['x']]]
    refine plain_closed (fun c => (get? "/B".toList (classesOf (exInheritLayers (.str "/B".toList))).2) = some c ||
      (get? "/".toList (classesOf (exInheritLayers (.str "/B".toList))).2) = some c) L
      (by unfold Names IsName; decide +kernel) (by decide +kernel) (by decide +kernel) (instSource_mem hd) ?_
    have : ∀ e ∈ (classesOf (exInheritLayers (.str "/B".toList))).2,
        (instSource (classesOf (exInheritLayers (.str "/B".toList))).1 (classesOf (exInheritLayers (.str "/B".toList))).2
          (classesOf (exInheritLayers (.str "/B".toList))).1.bases e.2).all (fun c =>
            (get? "/B".toList (classesOf (exInheritLayers (.str "/B".toList))).2) = some c ||
            (get? "/".toList (classesOf (exInheritLayers (.str "/B".toList))).2) = some c) = true := by decide +kernel
    have := this _ (mem_of_get? hc)
    rw [show instSource _ _ _ (p, c).2 = some d from hd] at this
    simpa using this
  · intro n hn
    have hst : stack (exInheritLayers (.str "/B".toList)) ['/'] =
      [exInheritSpec [] .none .none [(['q'], .str "world".toList)]] := by rfl
    rw [hst, List.mem_singleton] at hn
    subst hn
    have : get? "_instance".toList (exInheritSpec [] .none .none [(['q'], .str "world".toList)]) = some .none := by rfl
    rw [this]
    intro h; cases h

/-- Both orders give the values of `exInherit` (C73), and the class numbers differ. -/
example : exInherit exReversed "/A/x".toList [['k'], ['m'], ['n'], ['q'], ['z']] =
      exInherit (exInheritLayers (.str "/B".toList)) "/A/x".toList [['k'], ['m'], ['n'], ['q'], ['z']] ∧
    (exInherit exReversed "/A/x".toList [['k']]).isSome = true ∧
    get? "/A".toList (classesOf exReversed).2 ≠ get? "/A".toList (classesOf (exInheritLayers (.str "/B".toList))).2 := by
  decide +kernel

end Nxt.Props
