import Verif.Props.Build
import Verif.Props.InheritOrder
import Verif.Props.ExecReopen
/-!
# Property C145: a stage with instances in another order of nodes, or saved and opened again
-/
namespace Nxt.Props
open Dict NodeData Mro Inherit Spec Path

namespace Rebuilding

/-- What two lists of layers have to agree on for the same nodes to be made. -/
structure Matching (a b : List Comp.LayerNodes) : Prop where
  empty : ∀ p, stack a p = [] ↔ stack b p = []
  paths : instPathOf a = instPathOf b

theorem Matching.drawn {a b : List Comp.LayerNodes} (h : Matching a b) {ns s : List Str} : Drawn a ns s ↔ Drawn b ns s := by
  unfold Drawn
  rw [h.paths]
  simp only [ne_eq, h.empty]

theorem Matching.under {a b : List Comp.LayerNodes} (h : Matching a b) {ns s : List Str} : Under a ns s ↔ Under b ns s := by
  unfold Under
  simp only [h.drawn]

/-- The source of a copy has no source. -/
theorem no_source {a : List Comp.LayerNodes} (C : Separate (instPathOf a)) {ns s : List Str} (h : Drawn a ns s) :
    ¬ ∃ s', Drawn a s s' := by
  rintro ⟨s', q', r', t', e, rfl, hi', -, -⟩
  obtain ⟨q, r, t, rfl, rfl, hi, -, -⟩ := h
  obtain ⟨h1, h2⟩ := C.apart q r q' r' hi hi'
  rcases comparable e.symm with h | h
  · exact h1 h
  · exact h2 h

theorem firstSaid_map {a b : List Comp.LayerNodes} {k : Str} (f : Val → Val)
    (h : ∀ p, (stack b p).findSome? (get? k) = ((stack a p).findSome? (get? k)).map f) (ps : List (List Str)) :
    firstSaid b ps k = (firstSaid a ps k).map f := by
  unfold firstSaid
  induction ps with
  | nil => rfl
  | cons p ps ih =>
    rw [List.findSome?_cons, List.findSome?_cons, h, ih]
    cases (stack a (render p)).findSome? (get? k) <;> rfl

/-- Two builds of layers which match, user attributes related by a function where the layers are, and the rest said alike. -/
theorem matching_builds {a b : List Comp.LayerNodes} (ha : SpecNodes a) (hb : SpecNodes b) (hna : Named a) (hnb : Named b)
    (hm : Matching a b) (hw : ∀ i, instPathOf a [] = some (some i) → i = []) (C : Separate (instPathOf a)) (bs : List Str) (f : Val → Val)
    (same same' : Str → Str → Bool) (kids kids' : List Str → Str → List Str) (hk : GivesKids kids) (hk' : GivesKids kids')
    (real real' : Option Str) :
    ∃ n, ∀ fuel ≥ n, ∃ g nodes g' nodes', Build.compose same kids real fuel a = some (g, nodes) ∧
      Build.compose same' kids' real' fuel b = some (g', nodes') ∧
      (∀ ns, Names ns → (get? (render ns) nodes).isSome = (get? (render ns) nodes').isSome) ∧
      ∀ ns c c', Names ns → get? (render ns) nodes = some c → get? (render ns) nodes' = some c' →
        (∀ k, UserName bs k → (∀ p, (stack b p).findSome? (get? k) = ((stack a p).findSome? (get? k)).map f) →
          g'.attr? c' k = (g.attr? c k).map f) ∧
        ∀ x ∈ ["_enabled".toList, "_comment".toList, "_code".toList], (∀ ns, saidOf a ns x = saidOf b ns x) →
          Alike (g.attr c x) (g'.attr c' x) := by
  have C' : Separate (instPathOf b) := hm.paths ▸ C
  obtain ⟨n1, h1⟩ := C143_composed a ha hna hw C same kids hk real
  obtain ⟨n2, h2⟩ := C143_composed b hb hnb (hm.paths ▸ hw) C' same' kids' hk' real'
  refine ⟨max n1 n2, fun fuel hfu => ?_⟩
  obtain ⟨g, nodes, a1, a2, a3, a4, a5⟩ := h1 fuel (by omega)
  obtain ⟨g', nodes', b1, b2, b3, b4, b5⟩ := h2 fuel (by omega)
  have hnodes : ∀ ns, Names ns → ((get? (render ns) nodes).isSome ↔ (get? (render ns) nodes').isSome) := by
    intro ns hN
    rw [a2 ns hN, b2 ns hN]
    simp only [ne_eq, hm.empty, hm.drawn]
  refine ⟨g, nodes, g', nodes', a1, b1, fun ns hN => Bool.eq_iff_iff.2 (hnodes ns hN),
    fun ns c c' hN hc hc' => ⟨fun k hk hf => ?_, fun x hxx hx => ?_⟩⟩
  · by_cases hd : ∃ s, Under a ns s
    · obtain ⟨s, hd⟩ := hd
      rw [a4 ns s c k bs hN hd hc hk, b4 ns s c' k bs hN (hm.under.1 hd) hc' hk]
      exact firstSaid_map f hf _
    · rw [a3 ns c k bs hN hc hk hd, b3 ns c' k bs hN hc' hk (by simpa only [← hm.under] using hd)]
      exact firstSaid_map f hf _
  · have leaf : ∀ ns c c', Names ns → get? (render ns) nodes = some c → get? (render ns) nodes' = some c' →
        (¬ ∃ s, Drawn a ns s) → Alike (g.attr c x) (g'.attr c' x) := by
      intro ns c c' hN hc hc' hd
      have hs := hx ns
      obtain ⟨p1, -, p3⟩ := a5 ns c x hN hc hxx
      obtain ⟨q1, -, q3⟩ := b5 ns c' x hN hc' hxx
      cases hv : saidOf a ns x with
      | some v => exact .inl ((p1 v hv).trans (q1 v (hs.symm.trans hv)).symm)
      | none => exact .inr ⟨p3 hv hd, q3 (hs.symm.trans hv) (by simpa only [← hm.drawn] using hd)⟩
    by_cases hd : ∃ s, Drawn a ns s
    · obtain ⟨s, hd⟩ := hd
      have hs := hx ns
      obtain ⟨p1, p2, -⟩ := a5 ns c x hN hc hxx
      obtain ⟨q1, q2, -⟩ := b5 ns c' x hN hc' hxx
      cases hv : saidOf a ns x with
      | some v => exact .inl ((p1 v hv).trans (q1 v (hs.symm.trans hv)).symm)
      | none =>
        have hsN := (Building.drawn_iff.1 hd).names.1
        have hst : stack a (render s) ≠ [] := by obtain ⟨_, _, _, _, _, _, _, h⟩ := hd; exact h
        obtain ⟨b, hb⟩ := Option.isSome_iff_exists.1 ((a2 s hsN).2 (.inl hst))
        obtain ⟨b', hb'⟩ := Option.isSome_iff_exists.1 ((hnodes s hsN).1 (by rw [hb]; rfl))
        rw [p2 hv s b hd hb, q2 (hs.symm.trans hv) s b' (hm.drawn.1 hd) hb']
        exact leaf s b b' hsN hb hb' (no_source C hd)
    · exact leaf ns c c' hN hc hc' hd

/-- Two builds of layers which match, with user attributes related by a function and the rest said alike. -/
theorem same_builds {a b : List Comp.LayerNodes} (ha : SpecNodes a) (hb : SpecNodes b) (hna : Named a) (hnb : Named b)
    (hm : Matching a b) (hw : ∀ i, instPathOf a [] = some (some i) → i = []) (C : Separate (instPathOf a)) (bs : List Str) (f : Val → Val)
    (hf : ∀ k, UserName bs k → ∀ p, (stack b p).findSome? (get? k) = ((stack a p).findSome? (get? k)).map f)
    (same same' : Str → Str → Bool) (kids kids' : List Str → Str → List Str) (hk : GivesKids kids) (hk' : GivesKids kids')
    (real real' : Option Str) :
    ∃ n, ∀ fuel ≥ n, ∃ g nodes g' nodes', Build.compose same kids real fuel a = some (g, nodes) ∧
      Build.compose same' kids' real' fuel b = some (g', nodes') ∧
      (∀ ns, Names ns → (get? (render ns) nodes).isSome = (get? (render ns) nodes').isSome) ∧
      ∀ ns c c', Names ns → get? (render ns) nodes = some c → get? (render ns) nodes' = some c' →
        (∀ k, UserName bs k → g'.attr? c' k = (g.attr? c k).map f) ∧
        ∀ x ∈ ["_enabled".toList, "_comment".toList, "_code".toList], (∀ ns, saidOf a ns x = saidOf b ns x) →
          Alike (g.attr c x) (g'.attr c' x) := by
  obtain ⟨n, h⟩ := matching_builds ha hb hna hnb hm hw C bs f same same' kids kids' hk hk' real real'
  refine ⟨n, fun fuel hfu => ?_⟩
  obtain ⟨g, nodes, g', nodes', h1, h2, h3, h4⟩ := h fuel hfu
  exact ⟨g, nodes, g', nodes', h1, h2, h3, fun ns c c' hN hc hc' =>
    ⟨fun k hk => (h4 ns c c' hN hc hc').1 k hk (hf k hk), (h4 ns c c' hN hc hc').2⟩⟩

theorem matching_same {a b : List Comp.LayerNodes} (h : SameOpinions a b) : Matching a b where
  empty := fun p => by rw [h p]
  paths := by
    funext ns
    unfold instPathOf
    rw [h]

theorem reordered_named {a b : List Comp.LayerNodes} (h : Reordered a b) (hn : Named a) : Named b := by
  intro l' hl p n hm
  obtain ⟨l, h1, h2⟩ := Reordered.mem h hl
  exact hn l h1 p n (h2.mem_iff.2 hm)

theorem reopened_named {b : List Str} {a a' : List Comp.LayerNodes} (h : Reopened b a a')
    (hg : ∀ T ∈ a, ∃ order, GoodNodes T order) : Named a' := by
  intro T' hT' p n' hm
  obtain ⟨T, hT, file, hf⟩ := ReopenRun.reopened_mem h hT'
  obtain ⟨order, g⟩ := hg T hT
  obtain ⟨T1, h1, h2, h3, _⟩ := C57_nodes_round_trip b file T order g
  rw [hf] at h1
  obtain rfl := Option.some.inj h1
  have hok : Dict.Ok T' := h2.nodup_iff.2 g.ok
  have hk : p ∈ keys T := h2.mem_iff.1 (mem_keys_of_mem hm)
  obtain ⟨n, hn⟩ := Option.isSome_iff_exists.1 (get?_isSome.2 hk)
  obtain ⟨n1, n0, e1, e2, e3, -⟩ := h3 p n hn
  obtain ⟨m1, m2, m3⟩ := g.node p n hn
  obtain ⟨n2, f1, f2, _, _, _, f6, f7, _⟩ := C25_round_trip b n file p (order p) m1 m3
  rw [e2] at f1
  obtain rfl := Option.some.inj f1
  rw [get?_of_mem hok hm] at e1
  obtain rfl := Option.some.inj e1
  exact ⟨_, (e3 A_NAME (by decide +kernel)).trans f7⟩

theorem said_akin {b as : List Str} {l l' : List Comp.LayerNodes} (hl : ∀ p, ∀ n ∈ stack l p, ∀ x ∈ as, (get? x n).isSome)
    (hl' : ∀ p, ∀ n ∈ stack l' p, ∀ x ∈ as, (get? x n).isSome) (h : Reopen.Akin b as l l') {x : Str} (hx : x ∈ as) (p : Str) :
    (strongest (stack l p) x).bind (get? x) = (strongest (stack l' p) x).bind (get? x) := by
  have hb := Reopen.strongest_akin (h p) hx
  have h1 : ∀ n, strongest (stack l p) x = some n → n ∈ stack l p ∧ (getAttr n x).hasOpinion = true := by
    intro n hn
    exact ⟨List.mem_of_find?_eq_some hn, by simpa using List.find?_some hn⟩
  have h2 : ∀ n, strongest (stack l' p) x = some n → n ∈ stack l' p := fun n hn => List.mem_of_find?_eq_some hn
  generalize strongest (stack l p) x = u at hb h1
  generalize strongest (stack l' p) x = v at hb h2
  cases hb with
  | none => rfl
  | some hR =>
    obtain ⟨m1, m2⟩ := h1 _ rfl
    have m3 := h2 _ rfl
    obtain ⟨w, hw⟩ := Option.isSome_iff_exists.1 (hl p _ m1 x hx)
    obtain ⟨w', hw'⟩ := Option.isSome_iff_exists.1 (hl' p _ m3 x hx)
    rw [getAttr_of_get? hw, getAttr_of_get? hw'] at hR
    rw [getAttr_of_get? hw] at m2
    rw [Option.bind_some, Option.bind_some, hw, hw']
    rcases hR with rfl | ⟨h3, -⟩
    · rfl
    · rw [m2] at h3; cases h3

/-- What is said of a node after opening again is what was said before. -/
theorem reopened_said {b : List Str} {layers layers' : List Comp.LayerNodes} (h : Reopened b layers layers')
    (hs : SpecNodes layers) (hg : ∀ T ∈ layers, ∃ order, GoodNodes T order) :
    ∀ x ∈ ["_instance", "_enabled", "_comment", "_code"].map String.toList,
      (x ∉ WORLD_SAVED → ∀ n ∈ stack layers ['/'], (getAttr n x).hasOpinion = false) → ∀ p,
      (strongest (stack layers p) x).bind (get? x) = (strongest (stack layers' p) x).bind (get? x) := by
  have hs' := Reopen.reopened_specs h hg
  have hkeys : ∀ ls : List Comp.LayerNodes, SpecNodes ls → ∀ p, ∀ n ∈ stack ls p, ∀ x ∈ ["_instance", "_enabled", "_comment", "_code"].map String.toList,
      (get? x n).isSome := by
    intro ls hls p n hn
    obtain ⟨l, hl, hm⟩ := mem_stack hn
    exact hls.keys l hl p n hm
  have htr : ∀ x ∈ ["_instance", "_enabled", "_comment", "_code"].map String.toList, x ∈ TRACKED := by decide +kernel
  have said : ∀ x ∈ ["_instance", "_enabled", "_comment", "_code"].map String.toList,
      (x ∉ WORLD_SAVED → ∀ n ∈ stack layers ['/'], (getAttr n x).hasOpinion = false) → ∀ p,
      (strongest (stack layers p) x).bind (get? x) = (strongest (stack layers' p) x).bind (get? x) := by
    intro x hx hwx p
    have hA : Reopen.Akin b [x] layers layers' :=
      Reopen.reopened_akin h hg (fun a ha => by rw [List.mem_singleton.1 ha]; exact htr x hx)
        (fun a ha h' => by rw [List.mem_singleton.1 ha] at h' ⊢; exact hwx h')
    exact said_akin (fun p n hn y hy => by rw [List.mem_singleton.1 hy]; exact hkeys layers hs p n hn x hx)
      (fun p n hn y hy => by rw [List.mem_singleton.1 hy]; exact hkeys layers' hs' p n hn x hx) hA List.mem_cons_self p
  exact said

theorem reopened_matching {b : List Str} {layers layers' : List Comp.LayerNodes} (h : Reopened b layers layers')
    (hs : SpecNodes layers) (hg : ∀ T ∈ layers, ∃ order, GoodNodes T order)
    (hw : ∀ n ∈ stack layers ['/'], (getAttr n "_instance".toList).hasOpinion = false) : Matching layers layers' := by
  have said := reopened_said h hs hg
  have hE : ∀ p, Each (Reopen.Left b p) (stack layers p) (stack layers' p) := Reopen.reopened_stack h hg
  have he : ∀ p, stack layers p = [] ↔ stack layers' p = [] := by
    intro p
    rw [← List.length_eq_zero_iff, ← List.length_eq_zero_iff, (hE p).length_eq]
  refine ⟨he, ?_⟩
  funext ns
  unfold instPathOf
  rw [said "_instance".toList (by decide +kernel) (fun _ => hw) (render ns)]
  by_cases h0 : stack layers (render ns) = []
  · rw [if_pos h0, if_pos ((he _).1 h0)]
  · rw [if_neg h0, if_neg (fun h1 => h0 ((he _).2 h1))]

end Rebuilding

/-- C145: the order of the nodes in the layers does not matter, nor does the order in which children are found: a stage
with separate instances composes either way, to the same nodes with the same attributes, and to the same enabled
states, comments and code. -/
theorem C145_order {a b : List Comp.LayerNodes} (hr : Reordered a b) (ha : SpecNodes a) (hn : Named a)
    (hw : ∀ i, instPathOf a [] = some (some i) → i = []) (C : Separate (instPathOf a)) (same same' : Str → Str → Bool)
    (kids kids' : List Str → Str → List Str) (hk : GivesKids kids) (hk' : GivesKids kids') (real real' : Option Str) :
    ∃ n, ∀ fuel ≥ n, ∃ g nodes g' nodes', Build.compose same kids real fuel a = some (g, nodes) ∧
      Build.compose same' kids' real' fuel b = some (g', nodes') ∧
      (∀ ns, Names ns → (get? (render ns) nodes).isSome = (get? (render ns) nodes').isSome) ∧
      ∀ ns c c', Names ns → get? (render ns) nodes = some c → get? (render ns) nodes' = some c' →
        (∀ bs k, UserName bs k → g'.attr? c' k = g.attr? c k) ∧
        ∀ x ∈ ["_enabled".toList, "_comment".toList, "_code".toList], Alike (g.attr c x) (g'.attr c' x) := by
  have hs := Reordered.same hr ha.ok
  obtain ⟨n, h⟩ := Rebuilding.same_builds ha (Reordered.specNodes hr ha) hn (Rebuilding.reordered_named hr hn)
    (Rebuilding.matching_same hs) hw C [] id (fun k _ p => by rw [hs p, Option.map_id]; rfl) same same' kids kids' hk hk' real real'
  refine ⟨n, fun fuel hf => ?_⟩
  obtain ⟨g, nodes, g', nodes', h1, h2, h3, h4⟩ := h fuel hf
  refine ⟨g, nodes, g', nodes', h1, h2, h3, fun ns c c' hN hc hc' => ⟨fun bs k hk => ?_,
    fun x hx => (h4 ns c c' hN hc hc').2 x hx (fun ns => by unfold saidOf; rw [hs])⟩⟩
  have := (h4 ns c c' hN hc hc').1 k ⟨by simp, hk.2.1, hk.2.2⟩
  rwa [Option.map_id] at this

/-- C145: a stage with separate instances which is saved and opened again composes, to the same nodes, each with what a
file keeps of its attributes, with the same comment and code, and the same enabled state unless the world was switched.
Missing: attributes whose values a file does not keep (C25), and an instance path or enabled state of the world. -/
theorem C145_reopened_partial {b : List Str} {layers layers' : List Comp.LayerNodes} (h : Reopened b layers layers')
    (hs : SpecNodes layers) (hn : Named layers) (hg : ∀ T ∈ layers, ∃ order, GoodNodes T order)
    (hw : ∀ n ∈ stack layers ['/'], (getAttr n "_instance".toList).hasOpinion = false)
    (C : Separate (instPathOf layers)) (same same' : Str → Str → Bool)
    (kids kids' : List Str → Str → List Str) (hk : GivesKids kids) (hk' : GivesKids kids') (real real' : Option Str) :
    ∃ n, ∀ fuel ≥ n, ∃ g nodes g' nodes', Build.compose same kids real fuel layers = some (g, nodes) ∧
      Build.compose same' kids' real' fuel layers' = some (g', nodes') ∧
      (∀ ns, Names ns → (get? (render ns) nodes).isSome = (get? (render ns) nodes').isSome) ∧
      ∀ ns c c', Names ns → get? (render ns) nodes = some c → get? (render ns) nodes' = some c' →
        (∀ k, UserName b k → g'.attr? c' k = (g.attr? c k).map Spec.kept) ∧
        ∀ x ∈ ["_enabled".toList, "_comment".toList, "_code".toList],
          (x = "_enabled".toList → ∀ n ∈ stack layers ['/'], (getAttr n x).hasOpinion = false) →
          Alike (g.attr c x) (g'.attr c' x) := by
  have hs' := Reopen.reopened_specs h hg
  have said := Rebuilding.reopened_said h hs hg
  have hE : ∀ p, Each (Reopen.Left b p) (stack layers p) (stack layers' p) := Reopen.reopened_stack h hg
  have hm := Rebuilding.reopened_matching h hs hg hw
  have hwi : ∀ i, instPathOf layers [] = some (some i) → i = [] := by
    intro i hi
    unfold instPathOf at hi
    split at hi
    · cases hi
    · have : strongest (stack layers (render [])) "_instance".toList = none := by
        unfold strongest
        rw [List.find?_eq_none]
        intro n hn
        rw [hw n hn]
        decide
      rw [this] at hi
      cases hi
  obtain ⟨n, hb⟩ := Rebuilding.same_builds hs hs' hn (Rebuilding.reopened_named h hg) hm hwi C b Spec.kept
    (fun k hk p => by
      have := hE p
      generalize stack layers p = x at this
      generalize stack layers' p = y at this
      induction this with
      | nil => rfl
      | @cons u v us vs h1 _ ih =>
        rw [List.findSome?_cons, List.findSome?_cons, h1.1 k hk, ih]
        cases get? k u <;> rfl) same same' kids kids' hk hk' real real'
  refine ⟨n, fun fuel hf => ?_⟩
  obtain ⟨g, nodes, g', nodes', h1, h2, h3, h4⟩ := hb fuel hf
  refine ⟨g, nodes, g', nodes', h1, h2, h3, fun ns c c' hN hc hc' => ⟨(h4 ns c c' hN hc hc').1, fun x hx hwx =>
    (h4 ns c c' hN hc hc').2 x hx (fun ns => said x (List.mem_cons_of_mem _ hx) ?_ (render ns))⟩⟩
  intro hnw n hn
  have : ∀ x ∈ ["_enabled".toList, "_comment".toList, "_code".toList], x ∉ WORLD_SAVED → x = "_enabled".toList := by decide +kernel
  exact hwx (this x hx hnw) n hn

/-! ### Examples -/

/-- The nodes of the weaker layer of C143's example the other way round. -/
def exTurned : List Comp.LayerNodes := exBuildLayers.map List.reverse

theorem exTurned_reordered : Reordered exBuildLayers exTurned :=
  .cons (List.reverse_perm _).symm (.cons (List.reverse_perm _).symm .nil)

/-- The example meets the hypotheses of C145. -/
example := C145_order exTurned_reordered exBuildLayers_spec exBuildLayers_named exBuildLayers_world exBuildLayers_separate
  (fun a b => a == b) (fun a b => a == b) Proxies.kidPaths Proxies.kidPaths C79_scan C79_scan none none

/-- In both orders `/g/m/b` is the copy of `/r/b`. -/
example : exBuildRead exBuildLayers "/g/m/b".toList [['x'], ['y']] = exBuildRead exTurned "/g/m/b".toList [['x'], ['y']] ∧
    (exBuildRead exTurned "/g/m/b".toList [['x'], ['y']]).isSome = true := by decide +kernel

/-- `/A` is an instance of `/B`, which has a child. -/
def exKept : Comp.LayerNodes :=
  [exOpenSpec [] "" ["B", "A"] [], exOpenSpec ["B"] "" ["x"] [(['k'], .str "v".toList)],
    exOpenSpec ["B", "x"] "" [] [(['m'], .str "w".toList), (['z'], .str [])], exOpenSpec ["A"] "/B" [] []]

def exKeptOrder (p : Str) : List Str := if p = ['/'] then ["B".toList, "A".toList] else if p = "/B".toList then [['x']] else []

theorem exKept_names : ∀ ns ∈ ([[], [['B']], [['B'], ['x']], [['A']]] : List (List Str)), Names ns := by
  unfold Names IsName; decide +kernel

theorem exKept_good : GoodNodes exKept exKeptOrder where
  ok := by
    show List.Nodup (keys exKept)
    decide +kernel
  path := by
    intro p hp
    have : ∀ p ∈ keys exKept, p ∈ [[], [['B']], [['B'], ['x']], [['A']]].map render := by decide +kernel
    obtain ⟨ns, hm, rfl⟩ := List.mem_map.1 (this p hp)
    exact ⟨ns, exKept_names ns hm, rfl⟩
  node := by
    intro p n hn
    have := mem_of_get? hn
    simp only [exKept, exOpenSpec, List.mem_cons, List.not_mem_nil, or_false, Prod.mk.injEq] at this
    rcases this with ⟨rfl, rfl⟩ | ⟨rfl, rfl⟩ | ⟨rfl, rfl⟩ | ⟨rfl, rfl⟩ <;>
    exact ⟨by unfold Dict.Ok; decide +kernel, by rfl, by rfl⟩
  listed := by
    have : ∀ p ∈ keys exKept, p ≠ Path.WORLD → (exKeptOrder p).Nodup ∧
      ∀ q ∈ keys exKept, Path.parentPath q = p → Path.nodeName q ∈ exKeptOrder p := by
      decide +kernel
    exact this

theorem exKept_spec : SpecNodes [exKept] where
  ok := by intro l hl; rw [List.mem_singleton.1 hl]; exact exKept_good.ok
  path := by
    intro l hl p n hm
    rw [List.mem_singleton.1 hl] at hm
    exact exKept_good.path p (mem_keys.2 ⟨n, hm⟩)
  parent := by
    intro l hl ns n hN hm
    rw [List.mem_singleton.1 hl] at hm
    simp only [exKept, exOpenSpec, List.mem_cons, List.not_mem_nil, or_false, Prod.mk.injEq] at hm
    rcases hm with ⟨e, rfl⟩ | ⟨e, rfl⟩ | ⟨e, rfl⟩ | ⟨e, rfl⟩ <;>
    rw [Path.render_inj hN (by unfold Names IsName; decide +kernel) e] <;> rfl
  keys := by
    intro l hl p n hm a ha
    rw [List.mem_singleton.1 hl] at hm
    have : ∀ e ∈ exKept, ∀ a ∈ ["_instance", "_enabled", "_comment", "_code"].map String.toList, (get? a e.2).isSome = true := by
      decide +kernel
    exact this _ hm a ha

theorem exKept_named : Named [exKept] := by
  intro l hl p n hm
  rw [List.mem_singleton.1 hl] at hm
  simp only [exKept, exOpenSpec, List.mem_cons, List.not_mem_nil, or_false, Prod.mk.injEq] at hm
  rcases hm with ⟨-, rfl⟩ | ⟨-, rfl⟩ | ⟨-, rfl⟩ | ⟨-, rfl⟩ <;> exact ⟨_, rfl⟩

theorem exKept_path {ns : List Str} {i : Option Str} (hN : Names ns) (h : instPathOf [exKept] ns = some i) :
    (ns = [['A']] ∧ i = some "/B".toList) ∨ (ns ∈ ([[], [['B']], [['B'], ['x']]] : List (List Str)) ∧ (i = none ∨ i = some [])) := by
  have hne : stack [exKept] (render ns) ≠ [] := fun he => by rw [Building.instPathOf_none.2 he] at h; cases h
  obtain ⟨m, t, hmt⟩ := List.exists_cons_of_ne_nil hne
  obtain ⟨l, hl, hm⟩ := mem_stack (n := m) (p := render ns) (layers := [exKept]) (by rw [hmt]; simp)
  rw [List.mem_singleton.1 hl] at hm
  obtain ⟨ns', h3, h1⟩ : ∃ ns' ∈ ([[], [['B']], [['B'], ['x']], [['A']]] : List (List Str)), render ns' = render ns := by
    have : ∀ p ∈ keys exKept, p ∈ [[], [['B']], [['B'], ['x']], [['A']]].map render := by decide +kernel
    exact List.mem_map.1 (this _ (mem_keys.2 ⟨_, hm⟩))
  have := render_inj (exKept_names ns' h3) hN h1
  subst this
  have e1 : ∀ ns ∈ ([[], [['B']], [['B'], ['x']]] : List (List Str)), instPathOf [exKept] ns = some none ∨ instPathOf [exKept] ns = some (some []) := by
    decide +kernel
  have e2 : instPathOf [exKept] [['A']] = some (some "/B".toList) := by decide +kernel
  by_cases h4 : ns' ∈ ([[], [['B']], [['B'], ['x']]] : List (List Str))
  · rcases e1 ns' h4 with e | e <;> rw [e] at h <;> cases h
    · exact .inr ⟨h4, .inl rfl⟩
    · exact .inr ⟨h4, .inr rfl⟩
  · have : ns' = [['A']] := by simpa [List.mem_cons] using ((by simpa using h3 : ns' ∈ ([[], [['B']], [['B'], ['x']]] : List (List Str)) ++ [[['A']]]) |> fun h => (List.mem_append.1 h).resolve_left h4)
    subst this
    rw [e2] at h
    cases h
    exact .inl ⟨rfl, rfl⟩

theorem exKept_points : PointsTo "/B".toList [['A']] [['B']] := ⟨by simp, by decide, .inl (by decide +kernel)⟩

theorem exKept_inst {p r : List Str} (h : InstOf (instPathOf [exKept]) p r) : p = [['A']] ∧ r = [['B']] := by
  obtain ⟨h1, i, h2, h3⟩ := h
  rcases exKept_path h1 h2 with ⟨rfl, e⟩ | ⟨-, e | e⟩
  · cases e; exact ⟨rfl, pointsTo_unique h3 exKept_points⟩
  · cases e
  · cases e; exact absurd h3 not_pointsTo_nil

theorem exKept_separate : Separate (instPathOf [exKept]) where
  apart := by
    intro p r q s h h'
    obtain ⟨rfl, rfl⟩ := exKept_inst h
    obtain ⟨rfl, rfl⟩ := exKept_inst h'
    decide
  means := by
    intro p i hp h
    rcases exKept_path hp h with ⟨rfl, e⟩ | ⟨-, e | e⟩
    · cases e; exact .inr ⟨_, exKept_points⟩
    · cases e
    · cases e; exact .inl rfl
  own := by
    intro p r t i h h0 ht hN
    obtain ⟨rfl, rfl⟩ := exKept_inst h
    cases t with
    | nil => exact absurd rfl h0
    | cons x t =>
      rcases exKept_path (names_append.2 ⟨h.1, ht⟩) hN with ⟨e, -⟩ | ⟨e, -⟩ <;> simp at e

/-- Saved and opened again, the example composes to the same nodes, among them the copy `/A/x` of `/B/x`, which keeps the
value of `m` and loses the empty text of `z`. -/
example : ∃ layers', Reopened [] [exKept] layers' ∧ ∃ n, ∀ fuel ≥ n, ∃ g nodes g' nodes',
    Build.compose (fun a b => a == b) Proxies.kidPaths none fuel [exKept] = some (g, nodes) ∧
    Build.compose (fun a b => a == b) Proxies.kidPaths none fuel layers' = some (g', nodes') ∧
    (∀ ns, Names ns → (get? (render ns) nodes).isSome = (get? (render ns) nodes').isSome) ∧
    ∀ ns c c', Names ns → get? (render ns) nodes = some c → get? (render ns) nodes' = some c' →
      ∀ k, UserName [] k → g'.attr? c' k = (g.attr? c k).map Spec.kept := by
  have hg : ∀ T ∈ [exKept], ∃ order, GoodNodes T order :=
    fun T hT => ⟨exKeptOrder, by rw [List.mem_singleton.1 hT]; exact exKept_good⟩
  obtain ⟨layers', h, _⟩ := C128_reopens [] hg
  obtain ⟨n, hn⟩ := C145_reopened_partial h exKept_spec exKept_named hg (by decide +kernel) exKept_separate
    (fun a b => a == b) (fun a b => a == b) Proxies.kidPaths Proxies.kidPaths C79_scan C79_scan none none
  refine ⟨layers', h, n, fun fuel hf => ?_⟩
  obtain ⟨g, nodes, g', nodes', h1, h2, h3, h4⟩ := hn fuel hf
  exact ⟨g, nodes, g', nodes', h1, h2, h3, fun ns c c' hN hc hc' => (h4 ns c c' hN hc hc').1⟩

/-- The copy has what its source has. -/
example : exBuildRead [exKept] "/A/x".toList [['m'], ['z'], ['k']] =
    some ([some "w".toList, some [], some "v".toList], none) := by decide +kernel

end Nxt.Props
