import Verif.Props.Retract
import Verif.Props.Attrs
/-!
# Property C112: enabled state, comment and code in an edited stage; the functions of attributes as edits
-/
namespace Nxt.Props
open Dict NodeData Mro Inherit Increment Retract Spec

/-- The value of an attribute in the layers, by which `Opined` is stated. -/
theorem opined_iff {layers : List Comp.LayerNodes} {p : Str} {a : Str} {v : Val} :
    (match strongest (stack layers p) a with | some n => v = getAttr n a | none => v.hasOpinion = false) ↔
      (match (strongest (stack layers p) a).map (getAttr · a) with | some w => v = w | none => v.hasOpinion = false) := by
  cases strongest (stack layers p) a <;> exact Iff.rfl

theorem stack_key {layers : List Comp.LayerNodes} (h : SpecNodes layers) {p : Str} {n : Dict Str Val} (hn : n ∈ stack layers p)
    {a : Str} (ha : a ∈ ["_enabled", "_comment", "_code"].map String.toList) : ∃ v, get? a n = some v := by
  obtain ⟨l, hl, hg⟩ := List.mem_filterMap.1 hn
  exact Option.isSome_iff_exists.1 (h.keys l hl _ _ (mem_of_get? hg) a (three_all a ha).2.2.1)

/-- The attribute of a node which keeps its own table and its stack. -/
theorem attr_kept {layers layers' : List Comp.LayerNodes} {S S' : St} {specs links specs' links' : Nat → List Nat}
    (h : Settled layers S specs links) (h' : Settled layers' S' specs' links') (hs : SpecNodes layers) {ns : List Str}
    (hN : Names ns) {d : Nat} (hd : get? (render ns) S.nodes = some d) (hd' : get? (render ns) S'.nodes = some d)
    (hst : stack layers' (render ns) = stack layers (render ns)) (ho : S'.g.own d = S.g.own d) {a : Str}
    (ha : a ∈ ["_enabled", "_comment", "_code"].map String.toList) : S'.g.attr d a = S.g.attr d a := by
  have hne : stack layers (render ns) ≠ [] := fun e => by
    have := (h.free _).2 e
    rw [hd] at this; cases this
  obtain ⟨n0, r0, hn0⟩ := List.exists_cons_of_ne_nil hne
  obtain ⟨v, hv⟩ := stack_key hs (show n0 ∈ stack layers (render ns) by rw [hn0]; simp) ha
  rw [attr_own h' hN hd' (hst.trans hn0) hv, attr_own h hN hd hn0 hv, ho]

theorem opined_retable {layers : List Comp.LayerNodes} {S : St} {specs links : Nat → List Nat}
    (h : Settled layers S specs links) (hs : SpecNodes layers) (ho : Opined layers S) {p : Str} {i : Nat}
    {l : Comp.LayerNodes} {n n' : Dict Str Val}
    (hl : layers[i]? = some l) (hg : get? p l = some n) {f : Dict Str Val → Option (Dict Str Val)} (hf : f n = some n')
    (hk : ∀ k ∈ internalNames, get? k n' = get? k n) {S' : St} (hS : retable S i p f = some S') :
    Opined (putSpec layers i p n') S' := by
  obtain ⟨S1, s, h1, h2, h3, h4, h5, h6, h7⟩ := settled_retable h hl hg hf
  rw [hS] at h1
  obtain rfl := Option.some.inj h1
  intro ns d hN hd a ha
  have hd0 : get? (render ns) S.nodes = some d := by rw [← h3]; exact hd
  have hdm := mem_of_get? hd0
  have hdm' := mem_of_get? hd
  have hint : a ∈ internalNames :=
    (by decide +kernel : ∀ y ∈ ["_enabled", "_comment", "_code"].map String.toList, y ∈ internalNames) a ha
  have hsame : ∀ t, get? a (S'.g.own t) = get? a (S.g.own t) := by
    intro t
    by_cases e : t = s
    · subst e; rw [h5, h6]; exact hk a hint
    · rw [h7 t e]
  have hgetAttr : ∀ t, getAttr (S'.g.own t) a = getAttr (S.g.own t) a := by
    intro t; unfold getAttr; rw [hsame t]
  have st1 := specs_stack h hdm
  have st2 := specs_stack h2 hdm'
  have hstr : (strongest (stack (putSpec layers i p n') (render ns)) a).map (getAttr · a) =
      (strongest (stack layers (render ns)) a).map (getAttr · a) := by
    rw [← st1, ← st2]
    exact strongest_map fun t _ => hgetAttr t
  have hne : specs d ≠ [] := h.laid.nonempty _ d hdm
  obtain ⟨t, r, ht⟩ := List.exists_cons_of_ne_nil hne
  rw [ht, List.map_cons] at st1 st2
  obtain ⟨v, hv⟩ := stack_key hs (show S.g.own t ∈ stack layers (render ns) by rw [← st1]; simp) ha
  have hattr : S'.g.attr d a = S.g.attr d a := by
    rw [attr_own h2 hN hd st2.symm ((hsame t).trans hv), attr_own h hN hd0 st1.symm hv, hsame d]
  have hold := opined_iff.1 (ho ns d hN hd0 a ha)
  refine opined_iff.2 ?_
  rw [hstr, hattr]
  exact hold

/-- What the specs which are left say. -/
theorem givenBy_specs {E : Targeted.Env} {own : Nat → Dict Str Val} {a : Str} (ha : a ∈ ["_enabled", "_comment", "_code"].map String.toList)
    {specs links : List Nat} (h1 : ∀ s ∈ specs, E.arc s = some .reference ∧ getAttr (E.table s) a = getAttr (own s) a)
    (h2 : ∀ b ∈ links, E.arc b = some .parent) :
    givenBy E a (specs ++ links) = (strongest (specs.map own) a).map (getAttr · a) := by
  have har : a ∈ handsOn .reference :=
    (by decide +kernel : ∀ y ∈ ["_enabled", "_comment", "_code"].map String.toList, y ∈ handsOn .reference) a ha
  induction specs with
  | nil =>
    unfold givenBy
    have : links.find? (fun b => Gives E a b) = none := by
      rw [List.find?_eq_none]
      intro b hb
      simp only [decide_eq_true_eq]
      rintro ⟨⟨x, hx, hax⟩, -⟩
      rw [h2 b hb] at hx
      cases hx
      exact nomatch hax
    rw [List.nil_append, this]; rfl
  | cons s specs ih =>
    obtain ⟨q1, q2⟩ := h1 s List.mem_cons_self
    have ih := ih fun t ht => h1 t (List.mem_cons_of_mem _ ht)
    unfold givenBy strongest at ih ⊢
    rw [List.cons_append, List.map_cons, List.find?_cons, List.find?_cons]
    by_cases e : (getAttr (own s) a).hasOpinion = true
    · have : Gives E a s := ⟨⟨_, q1, har⟩, by rw [q2]; exact e⟩
      simp [this, e, q2]
    · have : ¬ Gives E a s := fun hh => e (by rw [← q2]; exact hh.2)
      rw [Bool.not_eq_true] at e
      simp only [this, decide_false, e]
      exact ih

theorem opined_less (is : Str → Str → Bool) {layers : List Comp.LayerNodes} {S : St} {specs links : Nat → List Nat}
    (h : Settled layers S specs links) (hs : SpecNodes layers)
    (hno : ∀ l ∈ layers, ∀ p n, (p, n) ∈ l → get? "_instance".toList n = some .none) (ho : Opined layers S) (hw : Whole layers)
    {ns : List Str} (hN : Names ns) {i : Nat} {l : Comp.LayerNodes} {n : Dict Str Val} (hl : layers[i]? = some l)
    (hg : get? (render ns) l = some n) {j : Nat} {l' : Comp.LayerNodes} (hj : j ≠ i) (hl' : layers[j]? = some l')
    (hg' : (get? (render ns) l').isSome) {S' : St} (hS : remove is S i (render ns) = some S') :
    Opined (dropSpec layers i (render ns)) S' := by
  obtain ⟨S1, c, s, h1, hc, hsc, h2, h3, h4, h5⟩ := settled_less is h hs.ok hl hg hj hl' hg'
  rw [hS] at h1
  obtain rfl := Option.some.inj h1
  have hm := mem_of_get? hc
  obtain ⟨hs', -⟩ := specNodes_drop hs hno i (render ns)
  intro ms d hM hd a ha
  have hd0 : get? (render ms) S.nodes = some d := by rw [← h3]; exact hd
  by_cases e : d = c
  · subst e
    obtain rfl := Path.render_inj hM hN (h.laid.inj _ _ _ (mem_of_get? hd0) hm)
    have hst := specs_stack h2 (mem_of_get? hd)
    simp only [if_true] at hst
    have hspecLeft : ∀ t ∈ (specs d).filter (· ≠ s), t ∈ specs d ∧ t ≠ d := by
      intro t ht
      have ht := (List.mem_filter.1 ht).1
      exact ⟨ht, fun e => (h.laid.spec _ d hm t ht).2.2.2 (render ms) (e ▸ hm)⟩
    have hown : ((specs d).filter (· ≠ s)).map S.g.own = stack (dropSpec layers i (render ms)) (render ms) := by
      rw [← hst]
      exact List.map_congr_left fun t ht => (h4 t (hspecLeft t ht).2).symm
    have hgb := givenBy_specs (E := env is S d) (own := S.g.own) ha (specs := (specs d).filter (· ≠ s)) (links := links d)
      (by
        intro t ht
        obtain ⟨ht', -⟩ := hspecLeft t ht
        refine ⟨?_, ?_⟩
        · show Targeted.getArc is false (S.addr d).1 (S.addr d).2 [] (S.addr t).1 (S.addr t).2 = _
          rw [h.addr ms d hM hm d List.mem_cons_self, h.addr ms d hM hm t (List.mem_cons_of_mem _ ht')]
          exact (C98_reference is false [] ms ms hM hM).2 rfl
        · have e : get? a ((env is S d).table t) = some (S.g.attr t a) := get?_map_self (three_all a ha).1
          obtain ⟨v, hv⟩ := stack_key hs (show S.g.own t ∈ stack layers (render ms) by
            rw [← specs_stack h hm]; exact List.mem_map_of_mem ht') ha
          obtain ⟨-, y2, y3, -⟩ := h.laid.spec _ d hm t ht'
          rw [getAttr_of_get? e, getAttr_of_get? hv]
          exact attr_spec h.laid y2 y3 hv)
      (by
        intro b hb
        rw [h.link ms d hM hm] at hb
        cases hnb : nearestAbove S.nodes ms with
        | none => rw [hnb] at hb; exact nomatch hb
        | some b' =>
          rw [hnb] at hb
          obtain rfl : b = b' := by simpa using hb
          obtain ⟨q, hq, hqn, hqb, -⟩ := nearestAbove_mem hM hnb
          have hne : ms ≠ [] := by rintro rfl; simp at hqn
          show Targeted.getArc is false (S.addr d).1 (S.addr d).2 [] (S.addr b).1 (S.addr b).2 = _
          rw [h.addr ms d hM hm d List.mem_cons_self, h.addr q b hq hqb b List.mem_cons_self]
          refine (C98_parent is false [] ms q hM hq).2 ⟨hne, ?_⟩
          have hpar := hw ms hM hne (fun e => by
            have := (h.free _).2 e
            rw [hd0] at this; cases this)
          rcases Path.eq_nil_or_snoc ms with rfl | ⟨m, x, rfl⟩
          · exact absurd rfl hne
          · rw [List.dropLast_concat] at hpar ⊢
            cases hgm : get? (render m) S.nodes with
            | none => exact absurd ((h.free _).1 hgm) hpar
            | some b'' =>
              have : nearestAbove S.nodes (m ++ [x]) = some b'' := by
                rw [nearestAbove_snoc]
                obtain ⟨r, hr⟩ := lineage_head m
                rw [hr, List.findSome?_cons, hgm]
              rw [this] at hnb
              obtain rfl := Option.some.inj hnb
              have hNm : Names m := fun y hy => hM y (List.mem_append_left _ hy)
              exact Path.render_inj hq hNm (h.laid.inj _ _ _ hqb (mem_of_get? hgm)))
    rw [hown] at hgb
    have hne' : stack (dropSpec layers i (render ms)) (render ms) ≠ [] := fun e => by
      have := (h2.free _).2 e
      rw [hd] at this; cases this
    obtain ⟨n0, r0, hn0⟩ := List.exists_cons_of_ne_nil hne'
    obtain ⟨v0, hv0⟩ := stack_key hs' (show n0 ∈ stack (dropSpec layers i (render ms)) (render ms) by rw [hn0]; simp) ha
    rw [attr_own h2 hM hd hn0 hv0, h5 a (three_all a ha).2.1, hgb, Option.getD_some]
    cases strongest (stack (dropSpec layers i (render ms)) (render ms)) a with
    | some n => rfl
    | none => exact (three_all a ha).2.2.2.2
  · have hne : render ms ≠ render ns := by
      intro e'
      rw [e', hc] at hd0
      exact e (Option.some.inj hd0).symm
    have hst := dropSpec_stack_other hs.ok (i := i) hne
    rw [hst, attr_kept h h2 hs hM hd0 hd hst (h4 d e) ha]
    exact ho ms d hM hd0 a ha

theorem opined_gone (is : Str → Str → Bool) {layers : List Comp.LayerNodes} {S : St} {specs links : Nat → List Nat}
    (h : Settled layers S specs links) (hs : SpecNodes layers) (ho : Opined layers S)
    {ns : List Str} (hN : Names ns) {i : Nat} {l : Comp.LayerNodes} {n : Dict Str Val} (hl : layers[i]? = some l)
    (hg : get? (render ns) l = some n) (honly : ∀ j l', j ≠ i → layers[j]? = some l' → get? (render ns) l' = none)
    (hleaf : ∀ m ms, Names (ns ++ m :: ms) → stack layers (render (ns ++ m :: ms)) = [])
    {S' : St} (hS : remove is S i (render ns) = some S') : Opined (dropSpec layers i (render ns)) S' := by
  obtain ⟨S1, h1, h2, h3, h4⟩ := settled_gone is h hs.ok hN hl hg honly hleaf
  rw [hS] at h1
  obtain rfl := Option.some.inj h1
  intro ms d hM hd a ha
  obtain ⟨q1, q2⟩ := h4 _ d (mem_of_get? hd)
  have hd0 := get?_of_mem h.laid.ok q1
  have hne : render ms ≠ render ns := by
    intro e
    rw [h3, e, get?_erase h.laid.ok, if_pos rfl] at hd
    cases hd
  have hst := dropSpec_stack_other hs.ok (i := i) hne
  rw [hst, attr_kept h h2 hs hM hd0 hd hst q2 ha]
  exact ho ms d hM hd0 a ha

theorem opined_edit (is : Str → Str → Bool) {layers layers' : List Comp.LayerNodes} {S : St} {specs links : Nat → List Nat}
    (h : Settled layers S specs links) (hs : SpecNodes layers)
    (hno : ∀ l ∈ layers, ∀ p n, (p, n) ∈ l → get? "_instance".toList n = some .none) (ho : Opined layers S)
    (hw : Whole layers) (hw' : Whole layers') {e : Edit} (he : Edited layers e layers') :
    ∃ S' specs' links', edit is S e = some S' ∧ Settled layers' S' specs' links' ∧ Opined layers' S' := by
  obtain ⟨⟨S', specs', links', h1, h2⟩, -⟩ := settled_edit is h hs hno he
  cases he with
  | @add ns c ha =>
    refine opined_add is h hs ho ha ?_
    rcases Path.eq_nil_or_snoc ns with rfl | ⟨m, x, rfl⟩
    · exact .inl rfl
    · right
      obtain ⟨l, hl, hg⟩ := ha.layer
      have := hw' _ ha.names (by simp) (putSpec_stack_same hl hg)
      rwa [putSpec_stack_other] at this
      rw [List.dropLast_concat]
      intro e
      have := congrArg List.length (Path.render_inj (Path.names_append.1 ha.names).1 ha.names e)
      simp at this
  | retable hN hl hg hf hk => exact ⟨S', specs', links', h1, h2, opined_retable h hs ho hl hg hf hk h1⟩
  | @remove ns i l n hN hl hg hor =>
    refine ⟨S', specs', links', h1, h2, ?_⟩
    by_cases hx : ∃ j l', j ≠ i ∧ layers[j]? = some l' ∧ (get? (render ns) l').isSome
    · obtain ⟨j, l', q1, q2, q3⟩ := hx
      exact opined_less is h hs hno ho hw hN hl hg q1 q2 q3 h1
    · exact opined_gone is h hs ho hN hl hg (fun j l' hj hl' => by
        cases hg' : get? (render ns) l' with
        | none => rfl
        | some x => exact absurd ⟨j, l', hj, hl', by rw [hg']; rfl⟩ hx) (hor.resolve_left hx) h1

theorem opined_edits (is : Str → Str → Bool) {layers layers' : List Comp.LayerNodes} {es : List Edit}
    (hh : Tended layers es layers') : ∀ {S : St} {specs links : Nat → List Nat}, Settled layers S specs links →
      SpecNodes layers → (∀ l ∈ layers, ∀ p n, (p, n) ∈ l → get? "_instance".toList n = some .none) → Opined layers S →
      ∃ S' specs' links', edits is S es = some S' ∧ Settled layers' S' specs' links' ∧ Opined layers' S' := by
  induction hh with
  | done _ => intro S specs links h _ _ ho; exact ⟨S, specs, links, rfl, h, ho⟩
  | more hw he ht ih =>
    intro S specs links h hs hno ho
    have hw' := by
      cases ht with
      | done hw => exact hw
      | more hw _ _ => exact hw
    obtain ⟨S1, specs1, links1, h1, h2, h3⟩ := opined_edit is h hs hno ho hw hw' he
    obtain ⟨-, hs1, hno1⟩ := settled_edit is h hs hno he
    obtain ⟨S', specs', links', h4, h5, h6⟩ := ih h2 hs1 hno1 h3
    refine ⟨S', specs', links', ?_, h5, h6⟩
    unfold edits at h4 ⊢
    rw [List.foldlM_cons, h1]
    exact h4

/-- C112: enabled states, comments and codes after a history of edits which never leaves a node without its parent:
those of the strongest layer with an opinion. -/
theorem C112_opinions_partial (is : Str → Str → Bool) {layers layers' : List Comp.LayerNodes} {es : List Edit}
    (hs : SpecNodes layers) (hno : ∀ l ∈ layers, ∀ p n, (p, n) ∈ l → get? "_instance".toList n = some .none)
    {order : List (Str × Nat)} (ho : order.Perm (classesOf layers).2) (h : Tended layers es layers') :
    ∃ g' layer addr S', postProxy (classesOf layers).2 order (classesOf layers).1 = some g' ∧
      edits is ⟨g', (classesOf layers).2, layer, addr⟩ es = some S' ∧
      ∀ ns c a, Names ns → get? (render ns) S'.nodes = some c → a ∈ ["_enabled", "_comment", "_code"].map String.toList →
        (∀ n, strongest (stack layers' (render ns)) a = some n → S'.g.attr c a = getAttr n a) ∧
        (strongest (stack layers' (render ns)) a = none → (S'.g.attr c a).hasOpinion = false) := by
  obtain ⟨g', layer, addr, links, h1, h2⟩ := composed_settled hs hno ho
  obtain ⟨S', specs', links', h3, h4, h5⟩ := opined_edits is h h2 hs hno (opined_composed hs hno ho h1 h2)
  refine ⟨g', layer, addr, S', h1, h3, fun ns c a hN hc ha => ?_⟩
  have := h5 ns c hN hc a ha
  constructor
  · intro n hn; rw [hn] at this; exact this
  · intro hn; rw [hn] at this; exact this

/-! ### The functions of attributes -/

/-- Functions which keep the other attributes keep the internal ones. -/
theorem internal_kept {a : Str} (ha : a ∉ internalNames) {n n' : Dict Str Val} (h : OthersKept a n n') :
    ∀ k ∈ internalNames, get? k n' = get? k n := by
  intro k hk
  have hn : AttrName k := by
    have : ∀ k ∈ internalNames, ¬ "__nxt".toList <:+ k := by decide +kernel
    rintro s rfl
    exact this _ hk (List.suffix_append _ _)
  have := h k .value hn (by rintro rfl; exact ha hk)
  rwa [Attrs.look_value, Attrs.look_value] at this

/-- C112: `node_setattr_data` of an attribute of the user, `delete_node_attr` and `add_node_attr` are such edits. -/
theorem C112_functions (c : Attrs.Ctx) (hm : c.muted = false) {layers : List Comp.LayerNodes} {ns : List Str} (hN : Names ns)
    {i : Nat} {l : Comp.LayerNodes} {n : Dict Str Val} (hl : layers[i]? = some l) (hg : get? (render ns) l = some n) (hn : Ok n)
    {a : Str} (ha : AttrName a) (hi : a ∉ internalNames) :
    (a ∈ keys n → a ∉ c.prot → ∀ create vs, Ok vs → "type".toList ∉ keys vs → "source".toList ∉ keys vs →
      ∃ n', Edited layers (.retable i (render ns) (fun n => Attrs.setData c n a create vs)) (putSpec layers i (render ns) n') ∧
        look n' a .value = ((get? "value".toList vs).map orNone).or (look n a .value) ∧ OthersKept a n n') ∧
    (a ∈ keys n → ∃ n', Edited layers (.retable i (render ns) (fun n => some (Attrs.deleteAttr c n a).2))
        (putSpec layers i (render ns) n') ∧ (∀ f, look n' a f = none) ∧ OthersKept a n n') ∧
    (Legal c.cc a → a ∉ c.prot → a ∉ keys n → (Attrs.localNames c n ++ c.prot).length + 2 ≤ c.fuel →
      ∀ data, Ok data → ∃ n', Edited layers (.retable i (render ns) (fun n => (Attrs.addAttr c n a data true).map Prod.snd))
        (putSpec layers i (render ns) n') ∧
        look n' a .value = (get? "value".toList data).or (look n a .value) ∧ OthersKept a n n') := by
  refine ⟨fun hk hp create vs h1 h2 h3 => ?_, fun hk => ?_, fun hle hp hk hfu data hd => ?_⟩
  · obtain ⟨n', q1, -, q3, q4, -⟩ := C88_set c hm n hn a ha hk hp create vs h1 h2 h3
    exact ⟨n', .retable hN hl hg q1 (internal_kept hi q3), q4, q3⟩
  · obtain ⟨n', q1, -, q3, q4⟩ := C86_delete c n hn a ha hk
    exact ⟨n', .retable hN hl hg (by rw [q1]) (internal_kept hi q3), q4, q3⟩
  · obtain ⟨b, n', q1, -, -, -, -, q6, q7, q8, -⟩ := C85_add c n hn a a (Attrs.legal_iff hle) ha hfu data hd true
    obtain rfl := q6 hp hk
    exact ⟨n', .retable hN hl hg (by rw [q1]; rfl) (internal_kept hi q7), q8, q7⟩

/-! ### Concrete cases -/

theorem whole_of {layers : List Comp.LayerNodes} (qs : List (List Str)) (hq : ∀ q ∈ qs, Names q)
    (hk : ∀ l ∈ layers, ∀ x ∈ keys l, x ∈ qs.map render)
    (h : ∀ q ∈ qs, q ≠ [] → stack layers (render q.dropLast) ≠ []) : Whole layers := by
  intro ns hN hne hst
  obtain ⟨n, r, hn⟩ := List.exists_cons_of_ne_nil hst
  obtain ⟨l, hl, hg⟩ := List.mem_filterMap.1 (show n ∈ stack layers (render ns) by rw [hn]; simp)
  obtain ⟨q, hq', e⟩ := List.mem_map.1 (hk l hl _ (List.mem_map_of_mem (f := Prod.fst) (mem_of_get? hg)))
  obtain rfl := Path.render_inj (hq q hq') hN e
  exact h q hq' hne

theorem leaf_of {layers : List Comp.LayerNodes} {ns : List Str} (qs : List (List Str)) (hq : ∀ q ∈ qs, Names q)
    (hk : ∀ l ∈ layers, ∀ x ∈ keys l, x ∈ qs.map render) (h : ∀ q ∈ qs, ¬ (ns <+: q ∧ ns ≠ q)) :
    ∀ m ms, Names (ns ++ m :: ms) → stack layers (render (ns ++ m :: ms)) = [] := by
  intro m ms hM
  unfold stack
  rw [List.filterMap_eq_nil_iff]
  intro l hl
  cases e : get? (render (ns ++ m :: ms)) l with
  | none => rfl
  | some n =>
    obtain ⟨q, hq', e'⟩ := List.mem_map.1 (hk l hl _ (List.mem_map_of_mem (f := Prod.fst) (mem_of_get? e)))
    obtain rfl := Path.render_inj (hq q hq') hM e'
    refine absurd ⟨List.prefix_append _ _, fun e => ?_⟩ (h _ hq')
    have := congrArg List.length e
    simp at this

/-- A strong and a weak layer. -/
def exEditLayers : List Comp.LayerNodes :=
  [[(render [['A']], exInheritSpec [['A']] .none (.list [.str "new".toList]) [(['k'], .str "strong".toList)])],
   [(render [['A']], exInheritSpec [['A']] .none (.list [.str "old".toList]) [(['k'], .str "weak".toList)]),
    (render [['A'], ['x']], exInheritSpec [['A'], ['x']] .none .none []),
    (render [], exInheritSpec [] .none .none [(['q'], .str "world".toList)])]]

/-- An attribute is set in the weak layer, the node of the strong layer is deleted, a node is added, a leaf is deleted. -/
def exEditCalls : List Edit :=
  [.retable 1 (render [['A']]) (fun n => some (Dict.set ['k'] (.str "edited".toList) n)), .remove 0 (render [['A']]),
   .add (exCall 0 [['A'], ['y']] .none []), .remove 1 (render [['A'], ['x']])]

/-- Texts and code of a node after edits of an empty stage. -/
def exEdit (es : List Edit) (p : Str) (ks : List Str) : Option (List (Option Str) × Option (List Str)) :=
  match edits (fun _ _ => false) emptyStage es with
  | none => none
  | some S => (get? p S.nodes).map (fun c => (ks.map (fun k => match S.g.attr? c k with | some (.str s) => some s | _ => none),
      names (S.g.attr c A_CODE)))

/-- The calls which make the layers of `exEditLayers`. -/
def exMake : List Edit :=
  [.add (exCall 1 [] .none [(['q'], .str "world".toList)]),
   .add (exCall 1 [['A']] (.list [.str "old".toList]) [(['k'], .str "weak".toList)]),
   .add (exCall 1 [['A'], ['x']] .none []),
   .add (exCall 0 [['A']] (.list [.str "new".toList]) [(['k'], .str "strong".toList)])]

/-- Before: the strong layer wins. -/
example : exEdit exMake "/A".toList [['k'], ['q']] = some ([some "strong".toList, some "world".toList], some ["new".toList]) ∧
    exEdit exMake "/A/x".toList [['k'], ['q']] = some ([some "strong".toList, some "world".toList], some []) := by decide +kernel

/-- After the first two edits: what the weak layer says, in the node and below it. -/
example : exEdit (exMake ++ exEditCalls.take 2) "/A".toList [['k'], ['q']] =
      some ([some "edited".toList, some "world".toList], some ["old".toList]) ∧
    exEdit (exMake ++ exEditCalls.take 2) "/A/x".toList [['k'], ['q']] =
      some ([some "edited".toList, some "world".toList], some []) := by decide +kernel

/-- After all edits. -/
example : exEdit (exMake ++ exEditCalls) "/A/x".toList [['k']] = none ∧
    exEdit (exMake ++ exEditCalls) "/A/y".toList [['k'], ['q']] = some ([some "edited".toList, some "world".toList], some []) := by
  decide +kernel

/-- The orphan (C112): both specs of `/A` are deleted, `/A/x` stays and keeps the attribute of `/A`. -/
example : exEdit (exMake ++ [.remove 0 (render [['A']]), .remove 1 (render [['A']])]) "/A".toList [['k']] = none ∧
    exEdit (exMake ++ [.remove 0 (render [['A']]), .remove 1 (render [['A']])]) "/A/x".toList [['k']] =
      some ([some "weak".toList], some []) := by decide +kernel

/-- A node without parent of which one spec is deleted: the world hands its code to it, as if it were an instance of the
world, see `C111_settings_violation`. -/
example :
    exEdit [.add (exCall 1 [] (.list [.str "world".toList]) []), .add (exCall 1 [['A'], ['x']] .none []),
      .add (exCall 0 [['A'], ['x']] (.list [.str "x".toList]) []), .remove 0 (render [['A'], ['x']])] "/A/x".toList [] =
      some ([], some ["world".toList]) := by decide +kernel

theorem exEdit_tended : ∃ layers', Tended exEditLayers exEditCalls layers' := by
  have names : ∀ q ∈ [[], [['A']], [['A'], ['x']], [['A'], ['y']]], Names q := by
    intro q h
    simp only [List.mem_cons, List.not_mem_nil, or_false] at h
    rcases h with rfl | rfl | rfl | rfl <;> (unfold Names IsName; decide +kernel)
  refine ⟨_, .more ?_ (.retable (ns := [['A']]) ?_ rfl rfl rfl ?_) (.more ?_ (.remove (ns := [['A']]) ?_ rfl rfl ?_)
    (.more ?_ (.add (ns := [['A'], ['y']]) ?_) (.more ?_ (.remove (ns := [['A'], ['x']]) ?_ rfl rfl ?_) (.done ?_))))⟩
  · exact whole_of _ names (by decide +kernel) (by decide +kernel)
  · exact names _ (by simp)
  · intro k hk
    rw [get?_set, if_neg]
    rintro rfl
    revert hk; decide +kernel
  · exact whole_of _ names (by decide +kernel) (by decide +kernel)
  · exact names _ (by simp)
  · exact .inl ⟨1, _, by decide, rfl, by decide +kernel⟩
  · exact whole_of [[], [['A']], [['A'], ['x']]] (fun q h => names q (List.mem_append_left [[['A'], ['y']]] h))
      (by decide +kernel) (by decide +kernel)
  · exact addable_of _ names (by decide +kernel) (names _ (by simp)) rfl rfl rfl (exSpec_table _ _ _)
      (fun _ => by decide +kernel) (fun h => absurd rfl h)
  · exact whole_of _ names (by decide +kernel) (by decide +kernel)
  · exact names _ (by simp)
  · exact .inr (leaf_of _ names (by decide +kernel) (by decide +kernel))
  · exact whole_of _ names (by decide +kernel) (by decide +kernel)

end Nxt.Props
