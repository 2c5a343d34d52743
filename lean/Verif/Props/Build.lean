import Verif.Lemmas.SepTable
import Verif.Lemmas.BuildDone
/-!
# Property C143: a stage with instances composed from beginning to end
-/
namespace Nxt.Props
open Dict NodeData Mro Inherit Spec Path

namespace Building
open Build

variable {layers : List Comp.LayerNodes}

theorem instPathOf_none {ns : List Str} : instPathOf layers ns = none ↔ stack layers (render ns) = [] := by
  unfold instPathOf
  split
  · rename_i h; simp [h]
  · rename_i h
    refine ⟨fun he => ?_, fun he => absurd he h⟩
    split at he <;> cases he

theorem drawn_iff {ns s : List Str} : Drawn layers ns s ↔ Copies (instPathOf layers) ns s := by
  unfold Drawn Copies
  simp only [ne_eq, instPathOf_none]

/-- The composite layer, its classes and what composing makes of them. -/
structure Whole (layers : List Comp.LayerNodes) (B : BSt) (g : Classes) : Prop where
  done : Done (instPathOf layers) B.lite
  kept : Kept (instPathOf layers) layers B
  classed : Classed (instPathOf layers) layers B (classes B).1 (classes B).2
  run : postProxy (classes B).2 (sortInstances (classes B).2 (classes B).2 (classes B).1) (classes B).1 = some g
  laid : ∃ links, Laid g (classes B).2 (classes B).1.bases links
  order : ∀ ns c, Names ns → (render ns, c) ∈ (classes B).2 →
    g.mro c = some (blocks (classes B).2 (classes B).1.bases (chain (srcOf (instPathOf layers)) ns) ++ [0])
  own : ∀ d k, Untouched k → get? k (g.own d) = get? k ((classes B).1.own d)
  specs : ∀ d, (∀ p, (p, d) ∉ (classes B).2) → g.own d = (classes B).1.own d
  value : ∀ ns c k, Names ns → (render ns, c) ∈ (classes B).2 → Theirs k →
    g.attr? c k = firstSaid layers (chain (srcOf (instPathOf layers)) ns) k

theorem whole_with (h : SpecNodes layers) (hn : Named layers) (hw : ∀ i, instPathOf layers [] = some (some i) → i = [])
    (C : Separate (instPathOf layers)) (same : Str → Str → Bool) {kids : List Str → Str → List Str} (hk : GivesKids kids)
    (real : Option Str) : ∃ n, ∀ fuel ≥ n, ∃ B g,
      compProxies same kids real fuel (start layers) = some B ∧
      compose same kids real fuel layers = some (g, (classes B).2) ∧ Whole layers B g := by
  have hS := start_start h hw
  have hN : nodesOf (start layers).lite = instPathOf layers := funext (nodesOf_start h)
  obtain ⟨n, hn'⟩ := done_spec hS (by rw [hN]; exact C) same hk
  refine ⟨n, fun fuel hf => ?_⟩
  obtain ⟨R, hR, hd⟩ := hn' fuel hf
  rw [hN] at hd
  rw [← lite_compProxies same kids real fuel (start layers), Option.map_eq_some_iff] at hR
  obtain ⟨B, hB, rfl⟩ := hR
  have hkept := kept_compProxies h hn hw same hk real hB
  have hc := classed h hkept hd.ok
  obtain ⟨hperm, -, -⟩ := C16_stable_sort (fun pc : Str × Nat => (trace (classes B).2 (classes B).1 pc.1).length) (classes B).2
  change (sortInstances (classes B).2 (classes B).2 (classes B).1).Perm (classes B).2 at hperm
  have hp : ∀ p c, (p, c) ∈ (classes B).2 → ∃ ns, Names ns ∧ p = render ns := fun p c hm =>
    hd.path p (hc.keys ▸ mem_keys_of_mem hm)
  obtain ⟨g, links, h1, hl, hmro, hown, hspec⟩ := postProxy_order hc.laid hp
    (fun ns c hN hm => by
      obtain ⟨m, ht, he⟩ := hc.tables _ c hm
      rw [he]
      exact parent_tables h hw hN ht)
    (fun p c hm => by
      obtain ⟨m, ht, he⟩ := hc.tables _ c hm
      rw [he]
      exact ht.has)
    (sources C hd hc.keys) (fun ns c hN hm => instSource_srcOf C hd hc ns c hN hm) hperm
  refine ⟨B, g, hB, ?_, hd, hkept, hc, h1, ⟨links, hl⟩, hmro, hown, hspec, fun ns c k hN hm hk => ?_⟩
  · unfold compose
    rw [hB, Option.bind_some, h1]
    rfl
  · rw [attr_blocks (hmro ns c hN hm) k, hown 0 k (theirs_untouched hk), hc.node]
    simp only [firstTable_congr (fun d => hown d k (theirs_untouched hk))]
    have hnode : get? k NODE_CLASS = none := by
      rw [get?_eq_none]
      intro hm
      have : ∀ x ∈ keys NODE_CLASS, x ∈ internalNames := by decide +kernel
      exact hk.1 (this k hm)
    rw [hnode, Option.or_none]
    unfold firstSaid
    congr 1
    funext q
    cases hg : get? (render q) (classes B).2 with
    | none =>
      rw [Option.bind_none]
      have : stack layers (render q) = [] := by
        refine Classical.byContradiction (fun hne => ?_)
        have := hkept.there _ hne
        rw [hkept.keys, ← hc.keys] at this
        exact get?_eq_none.1 hg this
      rw [this]
      rfl
    | some d =>
      obtain ⟨m, ht, he⟩ := hc.tables _ d (mem_of_get? hg)
      rw [Option.bind_some, he, user_tables ht hk]

theorem whole (h : SpecNodes layers) (hn : Named layers) (hw : ∀ i, instPathOf layers [] = some (some i) → i = [])
    (C : Separate (instPathOf layers)) (same : Str → Str → Bool) {kids : List Str → Str → List Str} (hk : GivesKids kids)
    (real : Option Str) : ∃ n, ∀ fuel ≥ n, ∃ B g, compose same kids real fuel layers = some (g, (classes B).2) ∧ Whole layers B g := by
  obtain ⟨n, hn⟩ := whole_with h hn hw C same hk real
  refine ⟨n, fun fuel hf => ?_⟩
  obtain ⟨B, g, -, h1, h2⟩ := hn fuel hf
  exact ⟨B, g, h1, h2⟩

theorem drawn_under {ns s : List Str} (h : Drawn layers ns s) : Under layers ns s :=
  ⟨ns, List.prefix_refl _, h, fun _ _ hm _ => hm⟩

theorem chain_plain (C : Separate (instPathOf layers)) {ns : List Str} (h : ¬ ∃ s, Under layers ns s) :
    chain (srcOf (instPathOf layers)) ns = lineage ns := by
  unfold chain
  cases hf : (lineage ns).findSome? (srcOf (instPathOf layers)) with
  | none => rfl
  | some s =>
    obtain ⟨m, h1, h2, h3⟩ := findSome_lineage hf
    exact absurd ⟨s, m, h1, drawn_iff.2 ((srcOf_some C).1 h2),
      fun m' s' hm' hd => h3 m' hm' (by rw [(srcOf_some C).2 (drawn_iff.1 hd)]; simp)⟩ h

theorem chain_copy (C : Separate (instPathOf layers)) {ns s : List Str} (h : Under layers ns s) :
    chain (srcOf (instPathOf layers)) ns = overSource ns s := by
  obtain ⟨m, h1, h2, h3⟩ := h
  refine chain_near h1 ((srcOf_some C).2 (drawn_iff.1 h2)) (fun x hx hn => ?_)
  obtain ⟨s', hs'⟩ := Option.ne_none_iff_exists'.1 hn
  exact h3 x s' hx (drawn_iff.2 ((srcOf_some C).1 hs'))

theorem Whole.nodes {B : BSt} {g : Classes} (W : Whole layers B g) {ns : List Str} (hN : Names ns) :
    (get? (render ns) (classes B).2).isSome ↔ stack layers (render ns) ≠ [] ∨ ∃ s, Drawn layers ns s := by
  rw [get?_isSome, W.classed.keys, W.done.nodes ns hN]
  simp only [drawn_iff, ne_eq, instPathOf_none]

/-- The composed attribute of a node which is in the layers. -/
theorem attr_compNode {p : Str} {a : Str} (ha : a ∈ Comp.OVERLOAD) (hhas : ∀ n ∈ stack layers p, (get? a n).isSome)
    (hs : stack layers p ≠ []) :
    (∀ v, (strongest (stack layers p) a).bind (get? a) = some v → (Comp.compNode p (stack layers p)).attr a = v ∧ v.hasOpinion = true) ∧
    ((strongest (stack layers p) a).bind (get? a) = none → ((Comp.compNode p (stack layers p)).attr a).hasOpinion = false) := by
  have hna : A_NAME ≠ a := by rintro rfl; exact absurd ha (by decide +kernel)
  have hco : a ≠ A_CHILD_ORDER := by rintro rfl; exact absurd ha (by decide +kernel)
  have hown : get? a (Comp.compNode p (stack layers p)).own = (strongest (stack layers p) a).map (fun n => getAttr n a) := by
    unfold Comp.compNode
    simp only
    rw [get?_set, if_neg hco]
    have key : ∀ own co, get? a own = none → get? a ((stack layers p).reverse.foldl (Comp.overloadBase p) (own, co)).1 =
          (strongest (stack layers p) a).map (fun n => getAttr n a) := by
      intro own co hown
      rw [(Comp.overload_fold p (stack layers p) own co a ha).1, hown]
      cases strongest (stack layers p) a <;> rfl
    apply key
    cases (stack layers p).head? with
    | none => rfl
    | some m => simp only [get?]; rw [if_neg hna]
  unfold Comp.CompNode.attr
  rw [hown]
  cases hst : strongest (stack layers p) a with
  | some n =>
    have hn : n ∈ stack layers p := List.mem_of_find?_eq_some hst
    obtain ⟨v, hv⟩ := Option.isSome_iff_exists.1 (hhas n hn)
    have hop : (getAttr n a).hasOpinion = true := by
      unfold strongest at hst
      have := List.find?_some hst
      simpa using this
    simp only [Option.map_some, Option.bind_some, hv, Option.some_or, Option.getD_some]
    rw [getAttr_of_get? hv] at hop ⊢
    exact ⟨fun w hw => ⟨Option.some.inj hw, by rw [← Option.some.inj hw]; exact hop⟩, (fun h => nomatch h)⟩
  | none =>
    simp only [Option.map_none, Option.bind_none, Option.none_or]
    refine ⟨(fun v h => nomatch h), fun _ => ?_⟩
    obtain ⟨n, t, hnt⟩ := List.exists_cons_of_ne_nil hs
    have hb : (Comp.compNode p (stack layers p)).bases = stack layers p := rfl
    rw [hb]
    have hn : n ∈ stack layers p := by rw [hnt]; simp
    obtain ⟨v, hv⟩ := Option.isSome_iff_exists.1 (hhas n hn)
    rw [hnt, List.findSome?_cons, hv]
    simp only [Option.some_or, Option.getD_some]
    unfold strongest at hst
    rw [List.find?_eq_none] at hst
    have := hst n hn
    rw [getAttr_of_get? hv] at this
    simpa using this

def THREE : List Str := ["_enabled".toList, "_comment".toList, "_code".toList]

theorem three_facts : ∀ a ∈ THREE, a ∈ Comp.OVERLOAD ∧ a ∉ EDITED ∧ a ≠ A_SOURCE_LAYER ∧
    a ∈ ["_instance", "_enabled", "_comment", "_code"].map String.toList := by decide +kernel

theorem chosen_here {g : Classes} {nodes : Dict Str Nat} {specs : Nat → List Nat} {a : Str} {c : Nat} {v w : Val}
    (h : Chosen g nodes specs a c v) (hw : firstTable a (tablesOf g specs c) = some w) (ho : w.hasOpinion = true) : v = w := by
  cases h with
  | here h1 _ => exact Option.some.inj (h1.symm.trans hw)
  | last h1 _ => exact Option.some.inj (h1.symm.trans hw)
  | next h1 h2 _ _ =>
    rw [Option.some.inj (h1.symm.trans hw), ho] at h2
    cases h2

theorem chosen_plain {g : Classes} {nodes : Dict Str Nat} {specs : Nat → List Nat} {a : Str} {c : Nat} {v w : Val}
    (h : Chosen g nodes specs a c v) (hw : firstTable a (tablesOf g specs c) = some w) (hi : instSource g nodes specs c = none) : v = w := by
  cases h with
  | here h1 _ => exact Option.some.inj (h1.symm.trans hw)
  | last h1 _ => exact Option.some.inj (h1.symm.trans hw)
  | next _ _ h3 _ => rw [hi] at h3; cases h3

theorem chosen_next {g : Classes} {nodes : Dict Str Nat} {specs : Nat → List Nat} {a : Str} {c b : Nat} {v w : Val}
    (h : Chosen g nodes specs a c v) (hw : firstTable a (tablesOf g specs c) = some w) (ho : w.hasOpinion = false)
    (hi : instSource g nodes specs c = some b) : Chosen g nodes specs a b v := by
  cases h with
  | here h1 h2 =>
    rw [Option.some.inj (h1.symm.trans hw), ho] at h2
    cases h2
  | last _ h2 => rw [hi] at h2; cases h2
  | next _ _ h3 h4 =>
    rw [hi] at h3
    cases h3
    exact h4

theorem three_has (h : SpecNodes layers) {p : Str} {i : Option Str} {n : Comp.CompNode} (ht : TabOk (instPathOf layers) layers p i n) {a : Str}
    (ha : a ∈ THREE) : (firstTable a (n.own :: n.bases)).isSome := by
  obtain ⟨-, h2, h3, h4⟩ := three_facts a ha
  unfold firstTable
  rw [List.findSome?_isSome_iff]
  by_cases hs : stack layers p = []
  · obtain ⟨s, c, e, g1, g2, -⟩ := ht.made hs
    refine ⟨s, by rw [g1]; simp, ?_⟩
    simp only [THREE, List.mem_cons, List.not_mem_nil, or_false] at ha
    rcases ha with rfl | rfl | rfl
    · rw [show "_enabled".toList = A_ENABLED from rfl, g2.enabled]; rfl
    · rw [show "_comment".toList = A_COMMENT from rfl, g2.comment]; rfl
    · rw [show "_code".toList = A_CODE from rfl, g2.code]; rfl
  · obtain ⟨g1, -⟩ := ht.real hs
    obtain ⟨m, t, hmt⟩ := List.exists_cons_of_ne_nil hs
    obtain ⟨l, hl, hm⟩ := mem_stack (n := m) (p := p) (layers := layers) (by rw [hmt]; simp)
    exact ⟨m, by rw [g1, hmt]; simp, h.keys l hl p m hm a h4⟩

theorem opinions (h : SpecNodes layers) (hw : ∀ i, instPathOf layers [] = some (some i) → i = [])
    (C : Separate (instPathOf layers)) {B : BSt} {g : Classes} (W : Whole layers B g) {ns : List Str} {c : Nat} (hN : Names ns)
    (hc : get? (render ns) (classes B).2 = some c) {a : Str} (ha : a ∈ THREE) :
    (∀ v, saidOf layers ns a = some v → g.attr c a = v) ∧
    (saidOf layers ns a = none → ∀ s b, Drawn layers ns s → get? (render s) (classes B).2 = some b → g.attr c a = g.attr b a) ∧
    (saidOf layers ns a = none → (¬ ∃ s, Drawn layers ns s) → (g.attr c a).hasOpinion = false) := by
  obtain ⟨f1, f2, f3, f4⟩ := three_facts a ha
  have hhas : ∀ p, ∀ n ∈ stack layers p, (get? a n).isSome := by
    intro p n hn
    obtain ⟨l, hl, hm⟩ := mem_stack hn
    exact h.keys l hl p n hm a f4
  have hCl := W.classed
  have hp : ∀ p c, (p, c) ∈ (classes B).2 → ∃ ns, Names ns ∧ p = render ns := fun p c hm =>
    W.done.path p (hCl.keys ▸ mem_keys_of_mem hm)
  have htabs : ∀ p c, (p, c) ∈ (classes B).2 → ∃ n, TabOk (instPathOf layers) layers p (Proxies.instOf B.lite p) n ∧
      ∀ a ∈ THREE, firstTable a (tablesOf (classes B).1 (classes B).1.bases c) = some (n.attr a) := by
    intro p c hm
    obtain ⟨n, ht, he⟩ := hCl.tables _ c hm
    refine ⟨n, ht, fun a ha => ?_⟩
    rw [he]
    exact firstTable_attr (three_has h ht ha)
  have hchosen : ∀ p c, (p, c) ∈ (classes B).2 → Chosen (classes B).1 (classes B).2 (classes B).1.bases a c (g.attr c a) := by
    intro p c hm
    refine C75_composed_partial hCl.laid hp (fun ns c hN hm => ?_) (fun p c hm => ?_) (fun c hm he => ?_) (List.Perm.refl _) W.run ha
      (fun p c hm => ?_) hm
    · obtain ⟨m, ht, he⟩ := hCl.tables _ c hm
      rw [he]
      exact parent_tables h hw hN ht
    · obtain ⟨m, ht, he⟩ := hCl.tables _ c hm
      rw [he]
      exact ht.has
    · obtain ⟨m, ht, he'⟩ := hCl.tables _ c hm
      rw [he', firstTable_attr ht.has] at he
      have hi := ht.inst
      rw [Option.some.inj he] at hi
      cases W.done.world _ hi.symm
    · obtain ⟨n, -, he⟩ := htabs p c hm
      rw [he a ha]
      rfl
  have hm := mem_of_get? hc
  obtain ⟨n, ht, he⟩ := htabs _ c hm
  have hch := hchosen _ c hm
  have hsrc := instSource_srcOf C W.done hCl ns c hN hm
  -- the source is there in the layers, and has no source
  have hsource : ∀ s b, Drawn layers ns s → get? (render s) (classes B).2 = some b →
      stack layers (render s) ≠ [] ∧ instSource (classes B).1 (classes B).2 (classes B).1.bases c = some b ∧
      firstTable a (tablesOf (classes B).1 (classes B).1.bases b) = some ((Comp.compNode (render s) (stack layers (render s))).attr a) ∧
      g.attr b a = (Comp.compNode (render s) (stack layers (render s))).attr a ∧
      ∀ v, Chosen (classes B).1 (classes B).2 (classes B).1.bases a b v → v = g.attr b a := by
    intro s b hcp hb
    have hs' := (srcOf_some C).2 (drawn_iff.1 hcp)
    have hnone := (sources C W.done hCl.keys).plain ns s s hs' (List.prefix_refl _)
    have hsN := (drawn_iff.1 hcp).names.1
    obtain ⟨q, r, t, -, -, -, -, hst⟩ := hcp
    obtain ⟨nb, htb, heb⟩ := htabs _ b (mem_of_get? hb)
    have hib := instSource_srcOf C W.done hCl s b hsN (mem_of_get? hb)
    rw [hnone, Option.bind_none] at hib
    have hfb := heb a ha
    rw [htb.attr_real hst f2] at hfb
    refine ⟨hst, by rw [hsrc, hs', Option.bind_some, hb], hfb, chosen_plain (hchosen _ b (mem_of_get? hb)) hfb hib, fun v hv => ?_⟩
    rw [chosen_plain hv hfb hib, chosen_plain (hchosen _ b (mem_of_get? hb)) hfb hib]
  by_cases hs : stack layers (render ns) = []
  · have hsaid : saidOf layers ns a = none := by unfold saidOf; rw [hs]; rfl
    have hcopy : ∃ s, Drawn layers ns s := (W.nodes hN |>.1 (by rw [hc]; rfl)).resolve_left (fun hne => hne hs)
    refine ⟨(fun v hv => by rw [hsaid] at hv; cases hv), fun _ s b hcp hb => ?_, fun _ hno => absurd hcopy hno⟩
    obtain ⟨k1, k2, k3, k4, k5⟩ := hsource s b hcp hb
    obtain ⟨sp, cm, en, g1, g2, g3, ns', s', e, hmade, hl⟩ := ht.made hs
    have hns := render_inj hN hmade.inst_names.1 e
    subst hns
    have hs' : s' = s := by
      obtain ⟨q, r, t, rfl, rfl, hi, htn, hNs⟩ := drawn_iff.1 hcp
      have := (sep_copies C hi t [] (by
        rw [List.append_nil]
        exact (drawn_iff.1 hcp).names.1) (by rw [List.append_nil]; exact hNs)).2
      exact (Separate.calm C).one _ _ _ hmade this
    subst hs'
    obtain ⟨hl1, hl2⟩ := hl k1
    have hnoop : ∀ w, n.attr a = w → w.hasOpinion = false → g.attr c a = g.attr b a := fun w hw ho =>
      k5 _ (chosen_next hch (by rw [he a ha, hw]) ho k2)
    have hattr : ∀ v, get? a sp = some v → n.attr a = v := by
      intro v hv
      unfold Comp.CompNode.attr
      rw [g3 a f2 f3, g1]
      simp [hv]
    have ha' := ha
    simp only [THREE, List.mem_cons, List.not_mem_nil, or_false] at ha'
    rcases ha' with rfl | rfl | rfl
    · have h1 := hattr _ g2.enabled
      by_cases ho : en.hasOpinion = true
      · rw [chosen_here hch (by rw [he _ ha, h1]) ho, k4, hl2]
        rfl
      · exact hnoop _ h1 (by simpa using ho)
    · have h1 := hattr _ g2.comment
      by_cases ho : cm.hasOpinion = true
      · rw [if_pos ho] at h1
        rw [chosen_here hch (by rw [he _ ha, h1]) ho, k4, hl1]
        rfl
      · rw [if_neg ho] at h1
        exact hnoop _ h1 rfl
    · exact hnoop _ (hattr _ g2.code) rfl
  · obtain ⟨a1, a2⟩ := attr_compNode f1 (hhas (render ns)) hs
    have hreal := he a ha
    rw [ht.attr_real hs f2] at hreal
    refine ⟨fun v hv => ?_, fun hv s b hcp hb => ?_, fun hv hno => ?_⟩
    · obtain ⟨b1, b2⟩ := a1 v hv
      rw [b1] at hreal
      exact chosen_here hch hreal b2
    · obtain ⟨k1, k2, k3, k4, k5⟩ := hsource s b hcp hb
      exact k5 _ (chosen_next hch hreal (a2 hv) k2)
    · have : srcOf (instPathOf layers) ns = none := srcOf_none.2 (by simpa only [← drawn_iff] using hno)
      rw [this, Option.bind_none] at hsrc
      rw [chosen_plain hch hreal hsrc]
      exact a2 hv

end Building

/-- C143: composing layers whose instances are separate succeeds, and its outcome is known from the layers.  The nodes
are those of the layers and the copies.  A node with no source at or above it has the attributes of its lineage.  Another
one, an instance, a copy or a node below one, has first those of the part of its lineage which is not above the source,
then those of the lineage of the source.  The enabled state, comment and code of a node are those the strongest layer with an opinion on the node
says, and without such a layer those of its source. -/
theorem C143_composed (layers : List Comp.LayerNodes) (h : SpecNodes layers) (hn : Named layers)
    (hw : ∀ i, instPathOf layers [] = some (some i) → i = []) (C : Separate (instPathOf layers))
    (same : Str → Str → Bool) (kids : List Str → Str → List Str) (hk : GivesKids kids) (real : Option Str) :
    ∃ n, ∀ fuel ≥ n, ∃ g nodes, Build.compose same kids real fuel layers = some (g, nodes) ∧
      (∀ ns, Names ns → ((get? (render ns) nodes).isSome ↔ stack layers (render ns) ≠ [] ∨ ∃ s, Drawn layers ns s)) ∧
      (∀ ns c k b, Names ns → get? (render ns) nodes = some c → UserName b k → (¬ ∃ s, Under layers ns s) →
        g.attr? c k = layered layers ns k) ∧
      (∀ ns s c k b, Names ns → Under layers ns s → get? (render ns) nodes = some c → UserName b k →
        g.attr? c k = firstSaid layers (overSource ns s) k) ∧
      ∀ ns c a, Names ns → get? (render ns) nodes = some c → a ∈ ["_enabled".toList, "_comment".toList, "_code".toList] →
        (∀ v, saidOf layers ns a = some v → g.attr c a = v) ∧
        (saidOf layers ns a = none → ∀ s b, Drawn layers ns s → get? (render s) nodes = some b → g.attr c a = g.attr b a) ∧
        (saidOf layers ns a = none → (¬ ∃ s, Drawn layers ns s) → (g.attr c a).hasOpinion = false) := by
  obtain ⟨n, hn'⟩ := Building.whole h hn hw C same hk real
  refine ⟨n, fun fuel hf => ?_⟩
  obtain ⟨B, g, h1, W⟩ := hn' fuel hf
  refine ⟨g, (Build.classes B).2, h1, fun ns hN => W.nodes hN, fun ns c k b hN hc hk hno => ?_, fun ns s c k b hN hcp hc hk => ?_,
    fun ns c a hN hc ha => Building.opinions h hw C W hN hc ha⟩
  · rw [W.value ns c k hN (mem_of_get? hc) (Build.theirs_user hk), Building.chain_plain C hno]
    rfl
  · rw [W.value ns c k hN (mem_of_get? hc) (Build.theirs_user hk), Building.chain_copy C hcp]

/-- C143: on one composite layer `comp_proxies` makes the nodes, instance paths and child orders which C79–C84 are about. -/
theorem C143_refines (same : Str → Str → Bool) (kids : List Str → Str → List Str) (real : Option Str) (fuel : Nat)
    (layers : List Comp.LayerNodes) : (Build.compProxies same kids real fuel (Build.start layers)).map Build.BSt.lite =
      Proxies.compProxies same kids fuel (Build.start layers).lite :=
  Build.lite_compProxies same kids real fuel (Build.start layers)

/-- C143: a copy has an attribute of the user as what it copies has it, if no node above the copy which is not above the
original has that attribute.  Missing: the other copies (`C143_shadow_violation`). -/
theorem C143_alike_partial (layers : List Comp.LayerNodes) (h : SpecNodes layers) (hn : Named layers)
    (hw : ∀ i, instPathOf layers [] = some (some i) → i = []) (C : Separate (instPathOf layers))
    (same : Str → Str → Bool) (kids : List Str → Str → List Str) (hk : GivesKids kids) (real : Option Str) :
    ∃ n, ∀ fuel ≥ n, ∃ g nodes, Build.compose same kids real fuel layers = some (g, nodes) ∧
      ∀ ns s c d k b, Drawn layers ns s → get? (render ns) nodes = some c → get? (render s) nodes = some d → UserName b k →
        (∀ a, a <+: ns → ¬ a <+: s → ∀ m ∈ stack layers (render a), get? k m = none) → g.attr? c k = g.attr? d k := by
  obtain ⟨n, hn'⟩ := Building.whole h hn hw C same hk real
  refine ⟨n, fun fuel hf => ?_⟩
  obtain ⟨B, g, h1, W⟩ := hn' fuel hf
  refine ⟨g, (Build.classes B).2, h1, fun ns s c d k b hcp hc hd hk hno => ?_⟩
  have hc' := Building.drawn_iff.1 hcp
  have hs := (Build.srcOf_some C).2 hc'
  have hnone := chain_none (fun m hm => (Build.sources C W.done W.classed.keys).plain ns s m hs hm)
  rw [W.value ns c k hc'.names.2.2 (mem_of_get? hc) (Build.theirs_user hk), W.value s d k hc'.names.1 (mem_of_get? hd) (Build.theirs_user hk),
    Building.chain_copy C (Building.drawn_under hcp), hnone]
  unfold firstSaid overSource
  rw [List.findSome?_append]
  have : ((lineage ns).filter (fun a => ¬ a <+: s)).findSome? (fun q => (stack layers (render q)).findSome? (get? k)) = none := by
    rw [List.findSome?_eq_none_iff]
    intro a ha
    obtain ⟨h2, h3⟩ := List.mem_filter.1 ha
    rw [List.findSome?_eq_none_iff]
    exact hno a ((mem_lineage ns a).1 h2) (by simpa using h3)
  rw [this, Option.none_or]

/-! ## A concrete stage

Two layers.  The weak one has `/g` with `k`, `/g/m` as an instance of `/r`, `/r` with `j` and `/r/b` with `k` and code.  The
strong one says `i` and a comment on `/r/b`. -/

def exBuildLayers : List Comp.LayerNodes :=
  [[(render [['r'], ['b']], exInheritSpec [['r'], ['b']] .none .none [(['i'], .str "strong".toList)])],
   [(render [['g']], exInheritSpec [['g']] .none .none [(['k'], .str "g".toList)]),
    (render [['g'], ['m']], exInheritSpec [['g'], ['m']] (.str "/r".toList) .none []),
    (render [['r']], exInheritSpec [['r']] .none (.list [.str "go".toList]) [(['j'], .str "r".toList)]),
    (render [['r'], ['b']], exInheritSpec [['r'], ['b']] .none (.list [.str "do".toList])
      [(['i'], .str "weak".toList), (['k'], .str "b".toList)])]]

/-- Read text attributes and the code of a node of a composed stage. -/
def exBuildRead (layers : List Comp.LayerNodes) (p : Str) (ks : List Str) : Option (List (Option Str) × Option (List Str)) :=
  match Build.compose (fun a b => a == b) Proxies.kidPaths none 9 layers with
  | some (g, nodes) => (get? p nodes).map (fun c => (ks.map (fun k => asText (g.attr c k)), names (g.attr c A_CODE)))
  | none => none

theorem exBuildLayers_mem {l : Comp.LayerNodes} {p : Str} {n : Dict Str Val} (hl : l ∈ exBuildLayers) (hm : (p, n) ∈ l) :
    ∃ ns inst code more, p = render ns ∧ n = exInheritSpec ns inst code more ∧
      ns ∈ [[['r'], ['b']], [['g']], [['g'], ['m']], [['r']]] := by
  simp only [exBuildLayers, List.mem_cons, List.not_mem_nil, or_false] at hl
  rcases hl with rfl | rfl
  · rw [List.mem_singleton] at hm
    cases hm
    exact ⟨_, _, _, _, rfl, rfl, by simp⟩
  · simp only [List.mem_cons, List.not_mem_nil, or_false, Prod.mk.injEq] at hm
    rcases hm with ⟨rfl, rfl⟩ | ⟨rfl, rfl⟩ | ⟨rfl, rfl⟩ | ⟨rfl, rfl⟩ <;> exact ⟨_, _, _, _, rfl, rfl, by simp⟩

theorem exBuildLayers_names : ∀ ns ∈ [[['r'], ['b']], [['g']], [['g'], ['m']], [['r']]], Names ns := by
  unfold Names IsName
  decide +kernel

theorem exBuildLayers_spec : SpecNodes exBuildLayers where
  ok := by
    intro l hl
    simp only [exBuildLayers, List.mem_cons, List.not_mem_nil, or_false] at hl
    rcases hl with rfl | rfl
    · simp [Dict.Ok, keys]
    · show List.Nodup [render [['g']], render [['g'], ['m']], render [['r']], render [['r'], ['b']]]
      decide +kernel
  path := by
    intro l hl p n hm
    obtain ⟨ns, _, _, _, h1, -, h3⟩ := exBuildLayers_mem hl hm
    exact ⟨ns, exBuildLayers_names ns h3, h1⟩
  parent := by
    intro l hl ns n hN hm
    obtain ⟨ns', _, _, _, h1, h2, h3⟩ := exBuildLayers_mem hl hm
    rw [render_inj hN (exBuildLayers_names ns' h3) h1, h2]
    rfl
  keys := by
    intro l hl p n hm a ha
    obtain ⟨ns, _, _, _, -, h2, -⟩ := exBuildLayers_mem hl hm
    rw [h2]
    simp only [List.map_cons, List.map_nil, List.mem_cons, List.not_mem_nil, or_false] at ha
    rcases ha with rfl | rfl | rfl | rfl <;> rfl

theorem exBuildLayers_named : Named exBuildLayers := by
  intro l hl p n hm
  obtain ⟨ns, _, _, _, -, h2, -⟩ := exBuildLayers_mem hl hm
  rw [h2]
  exact ⟨_, rfl⟩

theorem exBuildLayers_path {ns : List Str} {i : Option Str} (hN : Names ns) (h : instPathOf exBuildLayers ns = some i) :
    (ns = [['r'], ['b']] ∧ i = none) ∨ (ns = [['g']] ∧ i = none) ∨ (ns = [['g'], ['m']] ∧ i = some "/r".toList) ∨
      (ns = [['r']] ∧ i = none) := by
  have hne : stack exBuildLayers (render ns) ≠ [] := fun he => by rw [Building.instPathOf_none.2 he] at h; cases h
  obtain ⟨m, t, hmt⟩ := List.exists_cons_of_ne_nil hne
  obtain ⟨l, hl, hm⟩ := mem_stack (n := m) (p := render ns) (layers := exBuildLayers) (by rw [hmt]; simp)
  obtain ⟨ns', _, _, _, h1, -, h3⟩ := exBuildLayers_mem hl hm
  have := render_inj hN (exBuildLayers_names ns' h3) h1
  subst this
  have e1 : instPathOf exBuildLayers [['r'], ['b']] = some none := by decide +kernel
  have e2 : instPathOf exBuildLayers [['g']] = some none := by decide +kernel
  have e3 : instPathOf exBuildLayers [['g'], ['m']] = some (some "/r".toList) := by decide +kernel
  have e4 : instPathOf exBuildLayers [['r']] = some none := by decide +kernel
  simp only [List.mem_cons, List.not_mem_nil, or_false] at h3
  rcases h3 with rfl | rfl | rfl | rfl
  · exact .inl ⟨rfl, Option.some.inj (h.symm.trans e1)⟩
  · exact .inr (.inl ⟨rfl, Option.some.inj (h.symm.trans e2)⟩)
  · exact .inr (.inr (.inl ⟨rfl, Option.some.inj (h.symm.trans e3)⟩))
  · exact .inr (.inr (.inr ⟨rfl, Option.some.inj (h.symm.trans e4)⟩))

theorem exBuildLayers_world : ∀ i, instPathOf exBuildLayers [] = some (some i) → i = [] := by
  intro i h
  rcases exBuildLayers_path names_nil h with ⟨e, -⟩ | ⟨e, -⟩ | ⟨e, -⟩ | ⟨e, -⟩ <;> cases e

theorem exBuildLayers_points : PointsTo "/r".toList [['g'], ['m']] [['r']] :=
  ⟨by simp, by decide, .inl (by decide +kernel)⟩

theorem exBuildLayers_inst {p r : List Str} (h : InstOf (instPathOf exBuildLayers) p r) : p = [['g'], ['m']] ∧ r = [['r']] := by
  obtain ⟨h1, i, h2, h3⟩ := h
  rcases exBuildLayers_path h1 h2 with ⟨rfl, e⟩ | ⟨rfl, e⟩ | ⟨rfl, e⟩ | ⟨rfl, e⟩
  · cases e
  · cases e
  · cases e; exact ⟨rfl, pointsTo_unique h3 exBuildLayers_points⟩
  · cases e

theorem exBuildLayers_separate : Separate (instPathOf exBuildLayers) where
  apart := by
    intro p r q s h h'
    obtain ⟨rfl, rfl⟩ := exBuildLayers_inst h
    obtain ⟨rfl, rfl⟩ := exBuildLayers_inst h'
    decide
  means := by
    intro p i hp h
    rcases exBuildLayers_path hp h with ⟨rfl, e⟩ | ⟨rfl, e⟩ | ⟨rfl, e⟩ | ⟨rfl, e⟩
    · cases e
    · cases e
    · cases e; exact .inr ⟨_, exBuildLayers_points⟩
    · cases e
  own := by
    intro p r t i h h0 ht hN
    obtain ⟨rfl, rfl⟩ := exBuildLayers_inst h
    cases t with
    | nil => exact absurd rfl h0
    | cons x t =>
      rcases exBuildLayers_path (names_append.2 ⟨h.1, ht⟩) hN with ⟨e, -⟩ | ⟨e, -⟩ | ⟨e, -⟩ | ⟨e, -⟩ <;> simp at e

/-- The example meets the hypotheses of C143. -/
example := C143_composed exBuildLayers exBuildLayers_spec exBuildLayers_named exBuildLayers_world exBuildLayers_separate
  (fun a b => a == b) Proxies.kidPaths C79_scan none

/-- `/g/m/b` is a copy of `/r/b`. -/
theorem exBuildLayers_copy : Drawn exBuildLayers [['g'], ['m'], ['b']] [['r'], ['b']] :=
  ⟨[['g'], ['m']], [['r']], [['b']], rfl, rfl,
    ⟨by unfold Names IsName; decide +kernel, _, by decide +kernel, exBuildLayers_points⟩, by unfold Names IsName; decide +kernel,
    by simp only [ne_eq, ← Building.instPathOf_none]; decide +kernel⟩

/-- C143: the copy `/g/m/b` of `/r/b` has another `k` than `/r/b` itself: `/g`, above the instance, comes before the
original.  Its code, its `i` and its `j` are those of the original. -/
theorem C143_shadow_violation : Drawn exBuildLayers [['g'], ['m'], ['b']] [['r'], ['b']] ∧
    exBuildRead exBuildLayers "/g/m/b".toList [['i'], ['j'], ['k']] =
      some ([some "strong".toList, some "r".toList, some "g".toList], some ["do".toList]) ∧
    exBuildRead exBuildLayers "/r/b".toList [['i'], ['j'], ['k']] =
      some ([some "strong".toList, some "r".toList, some "b".toList], some ["do".toList]) :=
  ⟨exBuildLayers_copy, by decide +kernel, by decide +kernel⟩

/-- The child order, the instance path with its source, the source layer of a node, and whether it is a proxy. -/
structure ExMeta where
  order : Option (List Str)
  inst : Option Str
  source : Option (Option Str × Str)
  layer : Option Str
  proxy : Bool
deriving DecidableEq, Repr

/-- Read these of a composed stage. -/
def exBuildMeta (layers : List Comp.LayerNodes) (p : Str) : Option ExMeta :=
  match Build.compose (fun a b => a == b) Proxies.kidPaths (some "comp".toList) 9 layers with
  | some (g, nodes) => (get? p nodes).map (fun c => ⟨names (g.attr c A_CHILD_ORDER), asText (g.attr c A_INSTANCE),
      (match g.attr c (A_INSTANCE ++ M_SOURCE) with | .src l q => some (l, q) | _ => none), asText (g.attr c A_SOURCE_LAYER),
      (g.attr c A_PROXY).truthy⟩)
  | none => none

/-- `/r`, with `/r/b`, and its instance `/n`.  `/r` is in the layer `w`, `/n` in the layer `s`. -/
def exBuildMetaLayers : List Comp.LayerNodes :=
  [[(render [['n']], exInheritSpec [['n']] (.str "../r".toList) .none [(A_CHILD_ORDER, .list []), (A_SOURCE_LAYER, .str ['s'])])],
   [(render [['r']], exInheritSpec [['r']] .none .none [(A_CHILD_ORDER, .list [.str ['b']]), (A_SOURCE_LAYER, .str ['w'])]),
    (render [['r'], ['b']], exInheritSpec [['r'], ['b']] .none .none [(A_CHILD_ORDER, .list []), (A_SOURCE_LAYER, .str ['w'])])]]

/-- The copy `/n/b` has the source layer of `/r/b`; its instance path is said to come from the layer of `/n`. -/
example : exBuildMeta exBuildMetaLayers "/n/b".toList =
      some ⟨some [], some "/r/b".toList, some (some ['s'], "/r/b".toList), some ['w'], true⟩ ∧
    exBuildMeta exBuildMetaLayers "/n".toList = some ⟨some [['b']], some "/r".toList, some (some ['s'], "/n".toList), some ['s'], false⟩ :=
  ⟨by decide +kernel, by decide +kernel⟩

/-- `/n` is an instance of `/r`, which is an instance of `/t`; `/r/b` has a node below it but is none itself. -/
def exBuildForcedLayers : List Comp.LayerNodes :=
  [[(render [['r']], exInheritSpec [['r']] (.str "/t".toList) .none [(A_CHILD_ORDER, .list []), (A_SOURCE_LAYER, .str ['w'])]),
    (render [['r'], ['b'], ['c']], exInheritSpec [['r'], ['b'], ['c']] .none .none [(A_CHILD_ORDER, .list []), (A_SOURCE_LAYER, .str ['w'])]),
    (render [['t']], exInheritSpec [['t']] .none .none [(A_CHILD_ORDER, .list [.str ['b']]), (A_SOURCE_LAYER, .str ['w'])]),
    (render [['t'], ['b']], exInheritSpec [['t'], ['b']] .none .none [(A_CHILD_ORDER, .list []), (A_SOURCE_LAYER, .str ['w'])])],
   [(render [['z']], exInheritSpec [['z']] (.str "/r".toList) .none [(A_CHILD_ORDER, .list []), (A_SOURCE_LAYER, .str ['s'])])]]

/-- Read a node of the composite layer while proxies are made. -/
def exBuildPeek (B : Build.BSt) (p : Str) : Option ExMeta :=
  (get? p B.tab).map (fun n => ⟨names (n.attr A_CHILD_ORDER), asText (n.attr A_INSTANCE),
    (match n.attr (A_INSTANCE ++ M_SOURCE) with | .src l q => some (l, q) | _ => none), asText (n.attr A_SOURCE_LAYER),
    (n.attr A_PROXY).truthy⟩)

/-- A proxy of the missing `/r/b`, which the instance source `/t` of `/r` has as a child: it gets the layer of its parent, and
`/r` gets `b` as a child. -/
example :
    let B := (Build.create (fun a b => a == b) (some "comp".toList) (Build.start exBuildForcedLayers, []) ("/r/b".toList, "/z/b".toList))
    exBuildPeek B.1 "/z/b".toList = some ⟨some [], some "/r/b".toList, some (some ['s'], "/r/b".toList), some ['s'], true⟩ ∧
    (exBuildPeek B.1 "/z".toList).bind (·.order) = some [['b']] ∧ (exBuildPeek B.1 "/r".toList).bind (·.order) = some [['b']] ∧
    B.2 = [] :=
  ⟨by decide +kernel, by decide +kernel, by decide +kernel, by decide +kernel⟩

/-- A proxy of a missing path which is only implied has the layer of the composition. -/
example :
    let B := (Build.create (fun a b => a == b) (some "comp".toList) (Build.start exBuildForcedLayers, []) ("/t/q".toList, "/z/q".toList))
    exBuildPeek B.1 "/z/q".toList = some ⟨some [], some "/t/q".toList, some (some ['s'], "/t/q".toList), some "comp".toList, true⟩ ∧
    B.2 = ["/z/q".toList] :=
  ⟨by decide +kernel, by decide +kernel⟩

/-- The target is there already. -/
example :
    let B := (Build.create (fun a b => a == b) (some "comp".toList) (Build.start exBuildForcedLayers, []) ("/t/b".toList, "/z".toList))
    exBuildPeek B.1 "/z".toList = some ⟨some [], some "/t/b".toList, some (some ['w'], "/t/b".toList), some ['s'], false⟩ :=
  by decide +kernel

/-- Layers written as nodes by their names, with instance path, code and further attributes. -/
def exSpecLayers (L : List (List (List Str × Val × Val × Dict Str Val))) : List Comp.LayerNodes :=
  L.map (fun l => l.map (fun e => (render e.1, exInheritSpec e.1 e.2.1 e.2.2.1 e.2.2.2)))

theorem exSpecLayers_mem {L : List (List (List Str × Val × Val × Dict Str Val))} {l : Comp.LayerNodes} {p : Str} {n : Dict Str Val}
    (hl : l ∈ exSpecLayers L) (hm : (p, n) ∈ l) :
    ∃ e ∈ L.flatten, p = render e.1 ∧ n = exInheritSpec e.1 e.2.1 e.2.2.1 e.2.2.2 := by
  obtain ⟨l', h1, rfl⟩ := List.mem_map.1 hl
  obtain ⟨e, h2, h3⟩ := List.mem_map.1 hm
  cases h3
  exact ⟨e, List.mem_flatten.2 ⟨l', h1, h2⟩, rfl, rfl⟩

theorem exSpecLayers_spec {L : List (List (List Str × Val × Val × Dict Str Val))}
    (hok : ∀ l ∈ L, (l.map (fun e => render e.1)).Nodup) (hn : ∀ p ∈ L.flatten.map (·.1), Names p) : SpecNodes (exSpecLayers L) where
  ok := by
    intro l hl
    obtain ⟨l', h1, rfl⟩ := List.mem_map.1 hl
    have := hok l' h1
    unfold Dict.Ok keys
    rw [List.map_map]
    exact this
  path := by
    intro l hl p n hm
    obtain ⟨e, h1, h2, -⟩ := exSpecLayers_mem hl hm
    exact ⟨e.1, hn _ (List.mem_map_of_mem h1), h2⟩
  parent := by
    intro l hl ns n hN hm
    obtain ⟨e, h1, h2, h3⟩ := exSpecLayers_mem hl hm
    rw [render_inj hN (hn _ (List.mem_map_of_mem h1)) h2, h3]
    rfl
  keys := by
    intro l hl p n hm a ha
    obtain ⟨e, -, -, h3⟩ := exSpecLayers_mem hl hm
    rw [h3]
    simp only [List.map_cons, List.map_nil, List.mem_cons, List.not_mem_nil, or_false] at ha
    rcases ha with rfl | rfl | rfl | rfl <;> rfl

theorem exSpecLayers_named {L : List (List (List Str × Val × Val × Dict Str Val))} : Named (exSpecLayers L) := by
  intro l hl p n hm
  obtain ⟨e, -, -, h3⟩ := exSpecLayers_mem hl hm
  rw [h3]
  exact ⟨_, rfl⟩

/-- The instance path of a node of such layers is found among those of its entries. -/
theorem exSpecLayers_path {L : List (List (List Str × Val × Val × Dict Str Val))} (hn : ∀ p ∈ L.flatten.map (·.1), Names p)
    {ns : List Str} {i : Option Str} (hN : Names ns) (h : instPathOf (exSpecLayers L) ns = some i) :
    (ns, i) ∈ L.flatten.map (fun e => (e.1, (instPathOf (exSpecLayers L) e.1).getD none)) := by
  have hne : stack (exSpecLayers L) (render ns) ≠ [] := fun he => by rw [Building.instPathOf_none.2 he] at h; cases h
  obtain ⟨m, t, hmt⟩ := List.exists_cons_of_ne_nil hne
  obtain ⟨l, hl, hm⟩ := mem_stack (n := m) (p := render ns) (layers := exSpecLayers L) (by rw [hmt]; simp)
  obtain ⟨e, h1, h2, -⟩ := exSpecLayers_mem hl hm
  have := render_inj hN (hn _ (List.mem_map_of_mem h1)) h2
  subst this
  exact List.mem_map.2 ⟨e, h1, by rw [h]; rfl⟩

/-- `/n` is an instance of `/r`.  Below it, `/n/b` overrides `/r/b` and `/n/z` is a node of its own; `/n/d` is the copy of
`/r/d`. -/
def exLeafNodes : List (List (List Str × Val × Val × Dict Str Val)) :=
  [[([['n'], ['b']], .none, .none, [(['k'], .str "over".toList)])],
   [([['n']], .str "/r".toList, .none, [(['u'], .str "n".toList)]),
    ([['n'], ['z']], .none, .list [.str "own".toList], []),
    ([['r']], .none, .none, [(['j'], .str "r".toList), (['u'], .str "r".toList)]),
    ([['r'], ['b']], .none, .list [.str "do".toList], [(['i'], .str "b".toList), (['k'], .str "b".toList)]),
    ([['r'], ['d']], .none, .none, [(['k'], .str "d".toList)])]]

/-- The layers of these nodes. -/
def exLeafLayers : List Comp.LayerNodes := exSpecLayers exLeafNodes

/-- Their instance paths. -/
def exLeafTable : List (List Str × Option Str) :=
  [([['n'], ['b']], none), ([['n']], some "/r".toList), ([['n'], ['z']], none), ([['r']], none), ([['r'], ['b']], none),
   ([['r'], ['d']], none)]

theorem exLeafNodes_names : ∀ p ∈ exLeafNodes.flatten.map (·.1), Names p := by
  show ∀ p ∈ [[['n'], ['b']], [['n']], [['n'], ['z']], [['r']], [['r'], ['b']], [['r'], ['d']]], Names p
  unfold Names IsName
  decide +kernel

theorem exLeafLayers_spec : SpecNodes exLeafLayers :=
  exSpecLayers_spec (by
    intro l hl
    simp only [exLeafNodes, List.mem_cons, List.not_mem_nil, or_false] at hl
    rcases hl with rfl | rfl
    · simp
    · show List.Nodup [render [['n']], render [['n'], ['z']], render [['r']], render [['r'], ['b']], render [['r'], ['d']]]
      decide +kernel) exLeafNodes_names

theorem exLeafLayers_path {ns : List Str} {i : Option Str} (hN : Names ns) (h : instPathOf exLeafLayers ns = some i) :
    (ns, i) ∈ exLeafTable := by
  have h1 := exSpecLayers_path exLeafNodes_names hN h
  have e : exLeafNodes.flatten.map (fun e => (e.1, (instPathOf (exSpecLayers exLeafNodes) e.1).getD none)) = exLeafTable := by
    decide +kernel
  rw [e] at h1
  exact h1

theorem exLeafLayers_world : ∀ i, instPathOf exLeafLayers [] = some (some i) → i = [] := by
  intro i h
  have := exLeafLayers_path names_nil h
  simp [exLeafTable] at this

theorem exLeafLayers_points : PointsTo "/r".toList [['n']] [['r']] :=
  ⟨by simp, by decide, .inl (by decide +kernel)⟩

theorem exLeafLayers_separate : Separate (instPathOf exLeafLayers) :=
  separate_of_table (K := exLeafTable) (P := [([['n']], [['r']])]) (fun _ _ => exLeafLayers_path)
    (by
      intro p j h
      simp only [exLeafTable, List.mem_cons, Prod.mk.injEq, reduceCtorEq, and_false, List.not_mem_nil, or_false, false_or,
        Option.some.injEq] at h
      obtain ⟨rfl, rfl⟩ := h
      exact .inr ⟨_, List.mem_singleton.2 rfl, exLeafLayers_points⟩)
    ⟨by decide +kernel, by decide +kernel⟩

/-- They meet the hypotheses of C143. -/
example := C143_composed exLeafLayers exLeafLayers_spec exSpecLayers_named exLeafLayers_world exLeafLayers_separate
  (fun a b => a == b) Proxies.kidPaths C79_scan none

/-- The override stands for `/r/b` and the node of its own for no node, though both are below the instance. -/
example : Drawn exLeafLayers [['n'], ['b']] [['r'], ['b']] ∧ Under exLeafLayers [['n'], ['z']] [['r']] := by
  have hi : InstOf (instPathOf exLeafLayers) [['n']] [['r']] :=
    ⟨by unfold Names IsName; decide +kernel, _, by decide +kernel, exLeafLayers_points⟩
  have hd : Drawn exLeafLayers [['n'], ['b']] [['r'], ['b']] :=
    ⟨[['n']], [['r']], [['b']], rfl, rfl, hi, by unfold Names IsName; decide +kernel,
      by simp only [ne_eq, ← Building.instPathOf_none]; decide +kernel⟩
  refine ⟨hd, [['n']], by decide, ⟨[['n']], [['r']], [], rfl, rfl, hi, names_nil,
    by simp only [ne_eq, ← Building.instPathOf_none]; decide +kernel⟩, ?_⟩
  rintro m' s' hm ⟨q, r, t, rfl, rfl, h1, ht, h2⟩
  obtain ⟨h3, j, h4, h5⟩ := h1
  have h6 := exLeafLayers_path h3 h4
  simp only [exLeafTable, List.mem_cons, Prod.mk.injEq, reduceCtorEq, and_false, List.not_mem_nil, or_false, false_or,
    Option.some.injEq] at h6
  obtain ⟨rfl, rfl⟩ := h6
  rw [pointsTo_unique h5 exLeafLayers_points, ne_eq, ← Building.instPathOf_none] at h2
  cases t with
  | nil => exact List.prefix_rfl
  | cons x t =>
    exfalso
    simp only [List.cons_append, List.nil_append, List.cons_prefix_cons, true_and, List.prefix_nil] at hm
    obtain ⟨rfl, rfl⟩ := hm
    exact h2 (by decide +kernel)

/-- The override has its own `k`, and the `i` and the code of what it stands for; `u` of the instance comes before that of the
source.  The node of its own has its own code and takes `j` from the source of the instance above it. -/
example :
    exBuildRead exLeafLayers "/n/b".toList [['i'], ['j'], ['k'], ['u']] =
      some ([some "b".toList, some "r".toList, some "over".toList, some "n".toList], some ["do".toList]) ∧
    exBuildRead exLeafLayers "/n/z".toList [['i'], ['j'], ['k'], ['u']] =
      some ([none, some "r".toList, none, some "n".toList], some ["own".toList]) ∧
    exBuildRead exLeafLayers "/n/d".toList [['i'], ['j'], ['k'], ['u']] =
      some ([none, some "r".toList, some "d".toList, some "n".toList], none) :=
  ⟨by decide +kernel, by decide +kernel, by decide +kernel⟩

/-- The instance itself: its code is that of `/r`. -/
example : exBuildRead exBuildLayers "/g/m".toList [['i'], ['j'], ['k']] =
    some ([none, some "r".toList, some "g".toList], some ["go".toList]) := by decide +kernel

end Nxt.Props
