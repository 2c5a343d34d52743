import Verif.Props.Increment
/-!
# Property C111: enabled state, comment and code of nodes added to a composed stage
-/
namespace Nxt.Props
open Dict NodeData Mro Inherit Increment Spec

/-- The attribute of a node whose strongest spec has the key. -/
theorem attr_own {layers : List Comp.LayerNodes} {S : St} {specs links : Nat → List Nat}
    (h : Settled layers S specs links) {ns : List Str} (hN : Names ns) {c : Nat} (hc : get? (render ns) S.nodes = some c)
    {n : Dict Str Val} {r : List (Dict Str Val)} (hn : stack layers (render ns) = n :: r) {a : Str} {v : Val}
    (hv : get? a n = some v) : S.g.attr c a = (get? a (S.g.own c)).getD v := by
  have hm := mem_of_get? hc
  obtain ⟨l, h1, h2⟩ := attr_lineage h.laid h.link a (ns.length + 1) ns c (by omega) hN hm
  have hst : (specs c).map S.g.own = stack layers (render ns) := by
    have := congrArg (List.map Prod.snd) (h.tables _ c hm)
    rw [List.map_map, List.map_map] at this
    rw [← stackFrom_stack layers (render ns) 0]
    exact this
  unfold Classes.attr Classes.attr?
  rw [(Laid.mro_iff h.laid (h.laid.comp _ c hm).2.1).2 h1, Option.bind_some, h2]
  obtain ⟨rr, hr⟩ := lineage_head ns
  unfold inherited
  have hft : firstTable a (tablesOf S.g specs c) = (get? a (S.g.own c)).or (some v) := by
    unfold tablesOf
    rw [hst, hn]
    unfold firstTable
    rw [List.findSome?_cons, List.findSome?_cons, hv]
    cases get? a (S.g.own c) <;> rfl
  rw [hr, List.findSome?_cons]
  simp only [hc, Option.map_some, Option.bind_some, hft]
  cases get? a (S.g.own c) with
  | some w => rfl
  | none => rfl

theorem strongest_map {T U : Nat → Dict Str Val} {a : Str} {L : List Nat} (h : ∀ b ∈ L, getAttr (T b) a = getAttr (U b) a) :
    (strongest (L.map T) a).map (getAttr · a) = (strongest (L.map U) a).map (getAttr · a) := by
  unfold strongest
  induction L with
  | nil => rfl
  | cons b L ih =>
    rw [List.map_cons, List.map_cons, List.find?_cons, List.find?_cons, h b List.mem_cons_self]
    cases (getAttr (U b) a).hasOpinion with
    | true => simp only [Option.map_some]; rw [h b List.mem_cons_self]
    | false => exact ih fun b hb => h b (List.mem_cons_of_mem _ hb)

theorem specs_stack {layers : List Comp.LayerNodes} {S : St} {specs links : Nat → List Nat}
    (h : Settled layers S specs links) {p : Str} {c : Nat} (hc : (p, c) ∈ S.nodes) :
    (specs c).map S.g.own = stack layers p := by
  have := congrArg (List.map Prod.snd) (h.tables _ c hc)
  rw [List.map_map, List.map_map] at this
  rw [← stackFrom_stack layers p 0]
  exact this

/-- The attribute of a spec which has the key. -/
theorem attr_spec {g : Classes} {nodes : Dict Str Nat} {specs links : Nat → List Nat} (h : Laid g nodes specs links) {s : Nat}
    (hs : s < g.size) (hb : g.bases s = [0]) {a : Str} {v : Val} (hv : get? a (g.own s) = some v) : g.attr s a = v := by
  unfold Classes.attr Classes.attr?
  rw [(Laid.mro_iff h hs).2 (Laid.lin_other h hb), Option.bind_some, List.findSome?_cons, hv]
  rfl

theorem three_all : ∀ x ∈ ["_enabled", "_comment", "_code"].map String.toList, x ∈ ALL ∧ x ∈ opinionAttrs ∧
    x ∈ ["_instance", "_enabled", "_comment", "_code"].map String.toList ∧ x ≠ "_child_order".toList ∧
    (noOpinion x).hasOpinion = false := by decide +kernel

/-- What a spec added to an existing node below an existing node does to its enabled state, comment and code. -/
theorem there_own (is : Str → Str → Bool) {layers : List Comp.LayerNodes} {S : St} {specs links : Nat → List Nat}
    (h : Settled layers S specs links) (hsn : SpecNodes layers) {ns : List Str} {call : Call} (ha : Addable layers ns call)
    (hf : stack layers (render ns) ≠ []) (hpar : ns = [] ∨ stack layers (render ns.dropLast) ≠ []) :
    ∃ S' c specs', add is S call.layer call.par call.name call.table = some S' ∧ get? (render ns) S.nodes = some c ∧
      S'.nodes = S.nodes ∧ Settled (putSpec layers call.layer (render ns) call.table) S' specs' links ∧
      (∀ d < S.g.size, d ≠ c → S'.g.own d = S.g.own d) ∧
      ∀ a ∈ ["_enabled", "_comment", "_code"].map String.toList,
        S'.g.attr c a = ((strongest (stack (putSpec layers call.layer (render ns) call.table) (render ns)) a).map (getAttr · a)).getD
          (noOpinion a) := by
  obtain ⟨S', c, hc, hw, h1, h2⟩ := settled_there is h ha hf
  have hN := ha.names
  rw [ha.par, ha.name] at h1
  obtain ⟨S'', e1, q2, q3, q4, q5, q6, q7, q8, S3, e3, q9⟩ := add_there is h hN hc call.layer call.table hw
  rw [h1] at e1
  obtain rfl := Option.some.inj e1
  have hsn' := specNodes_put hsn ha
  have hc' : get? (render ns) S'.nodes = some c := by rw [q2]; exact hc
  have hm' := mem_of_get? hc'
  refine ⟨S', c, _, by rw [ha.par, ha.name]; exact h1, hc, q2, h2, q7, fun a haa => ?_⟩
  obtain ⟨hall, hop, hkey, hco, hno⟩ := three_all a haa
  have hst := specs_stack h2 hm'
  simp only [if_true] at hst
  generalize hL : around S.layer call.layer S.g.size (specs c) = L at hst q9
  generalize putSpec layers call.layer (render ns) call.table = layers' at h2 hst hsn'
  have hspecs : ∀ s ∈ L, s < S'.g.size ∧ S'.g.bases s = [0] ∧ s ≠ c := by
    intro s hs
    obtain ⟨-, x2, x3, x4⟩ := h2.laid.spec _ c hm' s (by simp only [if_true]; rw [hL]; exact hs)
    exact ⟨x2, x3, fun e => x4 (render ns) (e ▸ hm')⟩
  have hval : ∀ s ∈ L, ∃ v, get? a (S'.g.own s) = some v := by
    intro s hs
    have : S'.g.own s ∈ stack layers' (render ns) := by
      rw [← hst]; exact List.mem_map.2 ⟨s, hs, rfl⟩
    obtain ⟨l, hl, hg⟩ := List.mem_filterMap.1 this
    exact Option.isSome_iff_exists.1 (hsn'.keys l hl _ _ (mem_of_get? hg) a hkey)
  -- the tables read
  obtain ⟨u1, u2, u3, u4, u5, u6, u7⟩ := updateNode_spec is S3 c
  rw [← e3] at u1 u2 u3 u4 u5 u6 u7
  have hL3 : Laid S3.g S'.nodes (fun d => if d = c then around S.layer call.layer S.g.size (specs c) else specs d) links :=
    Laid.congr h2.laid u4.symm u5.symm
  have t3 : ∀ s ∈ L, getAttr ((env is S3 c).table s) a = getAttr (S'.g.own s) a := by
    intro s hs
    obtain ⟨v, hv⟩ := hval s hs
    obtain ⟨x1, x2, x3⟩ := hspecs s hs
    have e : get? a ((env is S3 c).table s) = some (S3.g.attr s a) := get?_map_self hall
    rw [getAttr_of_get? e, getAttr_of_get? hv]
    exact attr_spec hL3 (by rw [← u4]; exact x1) (by rw [← u5]; exact x2) (by rw [← u6 s x3]; exact hv)
  have t1 : ∀ s ∈ L, getAttr ((env is (newSpec S call.layer (parentText ns) (nameText ns) call.table) c).table s) a =
      getAttr (S'.g.own s) a := by
    intro s hs
    obtain ⟨v, hv⟩ := hval s hs
    obtain ⟨x1, x2, x3⟩ := hspecs s hs
    have e : get? a ((env is (newSpec S call.layer (parentText ns) (nameText ns) call.table) c).table s) =
        some ((newSpec S call.layer (parentText ns) (nameText ns) call.table).g.attr s a) := get?_map_self hall
    rw [getAttr_of_get? e, getAttr_of_get? hv]
    have hlaid : Laid (newSpec S call.layer (parentText ns) (nameText ns) call.table).g S.nodes specs links :=
      laid_newSpec h.laid call.table
    rw [← hL] at hs
    rcases List.mem_cons.1 ((around_perm _ _ _ _).mem_iff.1 hs) with rfl | hs'
    · refine attr_spec hlaid (Nat.lt_succ_self _) ?_ ?_
      · show (if S.g.size = S.g.size then _ else _) = _
        rw [if_pos rfl]
      · show get? a (if S.g.size = S.g.size then _ else _) = _
        rw [if_pos rfl, ← q6]; exact hv
    · obtain ⟨y1, y2, y3, y4⟩ := h.laid.spec _ c (mem_of_get? hc) s hs'
      refine attr_spec hlaid (Nat.lt_succ_of_lt y2) ?_ ?_
      · show (if s = S.g.size then _ else _) = _
        rw [if_neg (by omega)]; exact y3
      · show get? a (if s = S.g.size then _ else _) = _
        rw [if_neg (by omega), ← q7 s y2 x3]; exact hv
  have m1 := strongest_map t1
  rw [hst] at m1
  -- the arcs
  have hadc := h2.addr ns c hN hm'
  simp only [if_true] at hadc
  rw [hL] at hadc
  have harc : ∀ s ∈ L, (env is S3 c).arc s = some .reference := by
    intro s hs
    show Targeted.getArc is false (S3.addr c).1 (S3.addr c).2 [] (S3.addr s).1 (S3.addr s).2 = _
    rw [← u3, hadc c List.mem_cons_self, hadc s (List.mem_cons_of_mem _ hs)]
    exact (C98_reference is false [] ns ns hN hN).2 rfl
  have hlarc : ∀ b ∈ links c, (env is S3 c).arc b = some .parent := by
    intro b hb
    rw [h2.link ns c hN hm'] at hb
    cases hnb : nearestAbove S'.nodes ns with
    | none => rw [hnb] at hb; exact nomatch hb
    | some b' =>
      rw [hnb] at hb
      obtain rfl : b = b' := by simpa using hb
      obtain ⟨q, hq, hqn, hqb, -⟩ := nearestAbove_mem hN hnb
      have hne : ns ≠ [] := by rintro rfl; simp at hqn
      show Targeted.getArc is false (S3.addr c).1 (S3.addr c).2 [] (S3.addr b).1 (S3.addr b).2 = _
      rw [← u3, hadc c List.mem_cons_self, h2.addr q b hq hqb b List.mem_cons_self]
      refine (C98_parent is false [] ns q hN hq).2 ⟨hne, ?_⟩
      rcases hpar with rfl | hpar
      · exact absurd rfl hne
      · rcases Path.eq_nil_or_snoc ns with rfl | ⟨m, x, rfl⟩
        · exact absurd rfl hne
        · rw [List.dropLast_concat] at hpar ⊢
          cases hg : get? (render m) S.nodes with
          | none => exact absurd ((h.free _).1 hg) hpar
          | some b'' =>
            have : nearestAbove S'.nodes (m ++ [x]) = some b'' := by
              rw [nearestAbove_snoc]
              obtain ⟨r, hr⟩ := lineage_head m
              rw [hr, List.findSome?_cons, q2, hg]
            rw [this] at hnb
            obtain rfl := Option.some.inj hnb
            have hNm : Names m := fun y hy => hN y (List.mem_append_left _ hy)
            refine Path.render_inj hq hNm (h2.laid.inj _ _ _ hqb (mem_of_get? ?_))
            rw [q2]; exact hg
  have hb3 : S3.g.bases c = L ++ links c := by
    rw [← u5, (h2.laid.comp _ c hm').2.2]
    simp only [if_true]
    rw [hL]
  have hown : S'.g.own c = (Targeted.update (env is S3 c) false [.parent, .inst] ⟨S3.g.own c, L ++ links c⟩).own := by
    rw [e3]
    simp only [updateNode, setOwn, if_true]
    rw [hb3]
  have hu := C97_instances (env is S3 c) false [.parent, .inst] (S3.g.own c) L (links c) harc
    (fun b hb => by rw [hlarc b hb]; simp) (by simp) (by simp) a
  rw [← hown] at hu
  have hne' : stack layers' (render ns) ≠ [] := fun e => by
    have := (h2.free (render ns)).2 e
    rw [hc'] at this; cases this
  obtain ⟨n0, r0, hn0⟩ := List.exists_cons_of_ne_nil hne'
  obtain ⟨l0, hl0, hg0⟩ := List.mem_filterMap.1 (show n0 ∈ stack layers' (render ns) by rw [hn0]; simp)
  obtain ⟨v0, hv0⟩ := Option.isSome_iff_exists.1 (hsn'.keys l0 hl0 _ _ (mem_of_get? hg0) a hkey)
  rw [attr_own h2 hN hc' hn0 hv0, hu]
  cases hs : strongest (stack layers' (render ns)) a with
  | none =>
    rw [if_pos]
    · rw [Option.getD_some, Option.map_none, Option.getD_none]
      have : givenBy (env is S3 c) a (links c) = none := by
        unfold givenBy
        rw [Option.map_eq_none_iff, List.find?_eq_none]
        intro b hb
        simp only [decide_eq_true_eq]
        rintro ⟨⟨x, hx, hax⟩, -⟩
        rw [hlarc b hb] at hx
        cases hx
        exact nomatch hax
      rw [this]; rfl
    · refine ⟨haa, fun b hb => ?_⟩
      rw [t3 b hb]
      unfold strongest at hs
      rw [List.find?_eq_none] at hs
      exact Bool.eq_false_iff.2 (hs _ (by rw [← hst]; exact List.mem_map.2 ⟨b, hb, rfl⟩))
  | some n =>
    rw [if_neg]
    · rw [hs, Option.map_some] at m1
      cases hs1 : strongest (L.map (env is (newSpec S call.layer (parentText ns) (nameText ns) call.table) c).table) a with
      | none => rw [hs1] at m1; cases m1
      | some n1 =>
        rw [hs1] at m1
        rw [q9 a hop n1 hs1]
        exact Option.some.inj m1
    · rintro ⟨-, hall'⟩
      have hn := List.mem_of_find?_eq_some hs
      have hp := List.find?_some hs
      rw [← hst] at hn
      obtain ⟨b, hb, rfl⟩ := List.mem_map.1 hn
      have := hall' b hb
      rw [t3 b hb] at this
      rw [this] at hp; cases hp

/-- One call keeps the enabled states, comments and codes right. -/
theorem opined_add (is : Str → Str → Bool) {layers : List Comp.LayerNodes} {S : St} {specs links : Nat → List Nat}
    (h : Settled layers S specs links) (hsn : SpecNodes layers) (ho : Opined layers S) {ns : List Str} {call : Call}
    (ha : Addable layers ns call) (hpar : ns = [] ∨ stack layers (render ns.dropLast) ≠ []) :
    ∃ S' specs' links', add is S call.layer call.par call.name call.table = some S' ∧
      Settled (putSpec layers call.layer (render ns) call.table) S' specs' links' ∧
      Opined (putSpec layers call.layer (render ns) call.table) S' := by
  have hN := ha.names
  by_cases hf : stack layers (render ns) = []
  · obtain ⟨S', specs', links', h1, h2⟩ := settled_free is h ha hf
    refine ⟨S', specs', links', h1, h2, fun ms d hM hd a haa => ?_⟩
    have h1' := h1
    rw [ha.par, ha.name] at h1'
    by_cases hms : ms = ns
    · subst hms
      obtain ⟨v, hv⟩ := Option.isSome_iff_exists.1 (ha.table.keys a haa)
      obtain ⟨S2, c, e1, e2, e3⟩ := C111_settings_partial is h hN hf hpar call.layer call.table haa hv
      rw [h1'] at e1
      obtain rfl := Option.some.inj e1
      rw [hd] at e2
      obtain rfl := Option.some.inj e2
      obtain ⟨l, hl, hg⟩ := ha.layer
      have hst : stack (putSpec layers call.layer (render ms) call.table) (render ms) = [call.table] := by
        rw [← stackFrom_stack _ _ 0, stackFrom_same call.table layers 0 call.layer l hl hg]
        have : stackFrom 0 layers (render ms) = [] := by
          have := stackFrom_stack layers (render ms) 0
          rw [hf] at this
          exact List.map_eq_nil_iff.1 this
        rw [this]; rfl
      rw [hst, e3]
      unfold strongest
      rw [List.find?_cons, getAttr_of_get? hv]
      cases hv' : v.hasOpinion with
      | true => simp only [if_true]; exact (getAttr_of_get? hv).symm
      | false =>
        simp only [List.find?_nil]
        exact (three_all a haa).2.2.2.2
    · obtain ⟨S2, e1, e2⟩ := C111_others is h hN hf call.layer call.table
      rw [h1'] at e1
      obtain rfl := Option.some.inj e1
      have hne : render ms ≠ render ns := fun e => hms (Path.render_inj hM hN e)
      have hstn : stack layers (render ms) ≠ [] := by
        rw [← putSpec_stack_other (layers := layers) (i := call.layer) (n := call.table) hne]
        intro e
        have := (h2.free _).2 e
        rw [hd] at this; cases this
      cases hg : get? (render ms) S.nodes with
      | none => exact absurd ((h.free _).1 hg) hstn
      | some d' =>
        obtain ⟨g1, g2⟩ := e2 _ d' hg
        rw [hd] at g1
        obtain rfl := Option.some.inj g1
        have := ho ms d hM hg a haa
        rw [putSpec_stack_other hne]
        have e : S'.g.attr d a = S.g.attr d a := by
          unfold Classes.attr; rw [g2 a (three_all a haa).2.2.2.1]
        rw [e]; exact this
  · obtain ⟨S', c, specs', h1, hc, h3, h4, h5, h6⟩ := there_own is h hsn ha hf hpar
    refine ⟨S', specs', links, h1, h4, fun ms d hM hd a haa => ?_⟩
    by_cases hms : ms = ns
    · subst hms
      rw [h3, hc] at hd
      obtain rfl := Option.some.inj hd
      rw [h6 a haa]
      cases strongest (stack (putSpec layers call.layer (render ms) call.table) (render ms)) a with
      | some n => rfl
      | none => exact (three_all a haa).2.2.2.2
    · have hne : render ms ≠ render ns := fun e => hms (Path.render_inj hM hN e)
      have hd0 : get? (render ms) S.nodes = some d := by rw [← h3]; exact hd
      have := ho ms d hM hd0 a haa
      have hst := putSpec_stack_other (layers := layers) (i := call.layer) (n := call.table) hne
      have hstn : stack layers (render ms) ≠ [] := by
        intro e
        have := (h.free _).2 e
        rw [hd0] at this; cases this
      obtain ⟨n0, r0, hn0⟩ := List.exists_cons_of_ne_nil hstn
      obtain ⟨l0, hl0, hg0⟩ := List.mem_filterMap.1 (show n0 ∈ stack layers (render ms) by rw [hn0]; simp)
      obtain ⟨v0, hv0⟩ := Option.isSome_iff_exists.1 (hsn.keys l0 hl0 _ _ (mem_of_get? hg0) a (three_all a haa).2.2.1)
      have hdc : d ≠ c := by
        rintro rfl
        exact hne (h.laid.inj _ _ _ (mem_of_get? hd0) (mem_of_get? hc))
      have e : S'.g.attr d a = S.g.attr d a := by
        rw [attr_own h4 hM hd (hst.trans hn0) hv0, attr_own h hM hd0 hn0 hv0,
          h5 d (h.laid.comp _ d (mem_of_get? hd0)).2.1 hdc]
      rw [hst, e]; exact this

theorem opined_adds (is : Str → Str → Bool) {layers layers' : List Comp.LayerNodes} {calls : List Call}
    (hp : Planted layers calls layers') : ∀ {S : St} {specs links : Nat → List Nat}, Settled layers S specs links →
      SpecNodes layers → Opined layers S →
      ∃ S' specs' links', adds is S calls = some S' ∧ Settled layers' S' specs' links' ∧ Opined layers' S' := by
  induction hp with
  | done => intro S specs links hs _ ho; exact ⟨S, specs, links, rfl, hs, ho⟩
  | more ha hpar _ ih =>
    intro S specs links hs hsn ho
    obtain ⟨S1, specs1, links1, h1, h2, h3⟩ := opined_add is hs hsn ho ha hpar
    obtain ⟨S', specs', links', h4, h5, h6⟩ := ih h2 (specNodes_put hsn ha) h3
    refine ⟨S', specs', links', ?_, h5, h6⟩
    unfold adds at h4 ⊢
    rw [List.foldlM_cons, h1]
    exact h4

/-- The enabled states, comments and codes after a composition. -/
theorem opined_composed {layers : List Comp.LayerNodes} (h : SpecNodes layers)
    (hno : ∀ l ∈ layers, ∀ p n, (p, n) ∈ l → get? "_instance".toList n = some .none) {order : List (Str × Nat)}
    (ho : order.Perm (classesOf layers).2) {g' : Classes} {links : Nat → List Nat} {layer : Nat → Option Nat} {addr : Nat → Str × Str}
    (hg : postProxy (classesOf layers).2 order (classesOf layers).1 = some g')
    (hS : Settled layers ⟨g', (classesOf layers).2, layer, addr⟩ (classesOf layers).1.bases links) :
    Opined layers ⟨g', (classesOf layers).2, layer, addr⟩ := by
  intro ns c hN hc a haa
  obtain ⟨g2, links2, e1, e2, -, -⟩ := composed_parents h hno ho
  rw [hg] at e1
  obtain rfl := Option.some.inj e1
  obtain ⟨-, -, htab, -⟩ := classesOf_spec h
  obtain ⟨hne, ht⟩ := htab _ c (mem_of_get? hc)
  obtain ⟨n0, r0, hn0⟩ := List.exists_cons_of_ne_nil hne
  obtain ⟨l0, hl0, hg0⟩ := List.mem_filterMap.1 (show n0 ∈ stack layers (render ns) by rw [hn0]; simp)
  obtain ⟨v0, hv0⟩ := Option.isSome_iff_exists.1 (h.keys l0 hl0 _ _ (mem_of_get? hg0) a (three_all a haa).2.2.1)
  rw [attr_own hS hN hc hn0 hv0]
  have hown : g'.own c = (Comp.compNode (render ns) (stack layers (render ns))).own := by
    rw [e2]
    exact (List.cons.inj ht).1
  show (match strongest (stack layers (render ns)) a with
    | some n => (get? a (g'.own c)).getD v0 = getAttr n a
    | none => ((get? a (g'.own c)).getD v0).hasOpinion = false)
  have key : get? a (g'.own c) = (match strongest (stack layers (render ns)) a with | some n => some (getAttr n a) | none => none) := by
    rw [hown]
    unfold Comp.compNode
    simp only
    rw [get?_set, if_neg (show a ≠ A_CHILD_ORDER from (three_all a haa).2.2.2.1)]
    have hov : a ∈ Comp.OVERLOAD := (by decide +kernel : ∀ x ∈ ["_enabled", "_comment", "_code"].map String.toList, x ∈ Comp.OVERLOAD) a haa
    rw [(Comp.overload_fold (render ns) (stack layers (render ns)) _ _ a hov).1]
    cases strongest (stack layers (render ns)) a with
    | some n => rfl
    | none =>
      simp only
      rw [hn0]
      simp only [List.head?_cons, get?]
      rw [if_neg]
      intro e
      exact (by decide +kernel : ∀ x ∈ ["_enabled", "_comment", "_code"].map String.toList, A_NAME ≠ x) a haa e
  rw [key]
  cases hs : strongest (stack layers (render ns)) a with
  | some n => rfl
  | none =>
    simp only [Option.getD_none]
    unfold strongest at hs
    rw [List.find?_eq_none] at hs
    have := Bool.eq_false_iff.2 (hs n0 (by rw [hn0]; simp))
    rwa [getAttr_of_get? hv0] at this

/-- C111: enabled states, comments and codes after any history of calls on a composed stage which add nodes below
existing nodes, or further specs of them: those of the strongest layer with an opinion. -/
theorem C111_opinions_partial (is : Str → Str → Bool) {layers layers' : List Comp.LayerNodes} {calls : List Call}
    (hs : SpecNodes layers) (hno : ∀ l ∈ layers, ∀ p n, (p, n) ∈ l → get? "_instance".toList n = some .none)
    {order : List (Str × Nat)} (ho : order.Perm (classesOf layers).2) (h : Planted layers calls layers') :
    ∃ g' layer addr S', postProxy (classesOf layers).2 order (classesOf layers).1 = some g' ∧
      adds is ⟨g', (classesOf layers).2, layer, addr⟩ calls = some S' ∧
      ∀ ns c a, Names ns → get? (render ns) S'.nodes = some c → a ∈ ["_enabled", "_comment", "_code"].map String.toList →
        (∀ n, strongest (stack layers' (render ns)) a = some n → S'.g.attr c a = getAttr n a) ∧
        (strongest (stack layers' (render ns)) a = none → (S'.g.attr c a).hasOpinion = false) := by
  obtain ⟨g', layer, addr, links, h1, h2⟩ := composed_settled hs hno ho
  obtain ⟨S', specs', links', h3, h4, h5⟩ := opined_adds is h h2 hs (opined_composed hs hno ho h1 h2)
  refine ⟨g', layer, addr, S', h1, h3, fun ns c a hN hc ha => ?_⟩
  have := h5 ns c hN hc a ha
  constructor
  · intro n hn; rw [hn] at this; exact this
  · intro hn; rw [hn] at this; exact this

/-- C111: the same for a stage made from nothing. -/
theorem C111_made_opinions_partial (is : Str → Str → Bool) {layers layers' : List Comp.LayerNodes} {calls : List Call}
    (hl : ∀ l ∈ layers, l = []) (h : Planted layers calls layers') :
    ∃ S', adds is emptyStage calls = some S' ∧
      ∀ ns c a, Names ns → get? (render ns) S'.nodes = some c → a ∈ ["_enabled", "_comment", "_code"].map String.toList →
        (∀ n, strongest (stack layers' (render ns)) a = some n → S'.g.attr c a = getAttr n a) ∧
        (strongest (stack layers' (render ns)) a = none → (S'.g.attr c a).hasOpinion = false) := by
  obtain ⟨S', specs', links', h3, h4, h5⟩ := opined_adds is h (settled_empty hl) (specNodes_empty hl)
    (fun ns c _ hc => by exact nomatch hc)
  refine ⟨S', h3, fun ns c a hN hc ha => ?_⟩
  have := h5 ns c hN hc a ha
  constructor
  · intro n hn; rw [hn] at this; exact this
  · intro hn; rw [hn] at this; exact this

/-! ### The parent lists the new node -/

theorem findSome?_below {n : Nat} {f g : Nat → Option Val} : ∀ {L : List Nat}, (∀ d ∈ L, d < n) → (∀ d < n, f d = g d) →
    L.findSome? f = L.findSome? g
  | [], _, _ => rfl
  | d :: L, h, hfg => by
    rw [List.findSome?_cons, List.findSome?_cons, hfg d (h d List.mem_cons_self),
      findSome?_below (L := L) (fun e he => h e (List.mem_cons_of_mem _ he)) hfg]

/-- C111: the child order of the parent has the name of the new node, behind all it had before; a name which was there
keeps its place. -/
theorem C111_listed (is : Str → Str → Bool) {layers : List Comp.LayerNodes} {S : St} {specs links : Nat → List Nat}
    (h : Settled layers S specs links) {ns : List Str} (hN : Names ns) (hf : stack layers (render ns) = [])
    {b : Nat} (hb : get? (parentText ns) S.nodes = some b) {co : List Str} (hco : names (S.g.attr b "_child_order".toList) = some co)
    (hnd : co.Nodup) (i : Nat) (t : Dict Str Val) :
    ∃ S', add is S i (parentText ns) (nameText ns) t = some S' ∧
      names (S'.g.attr b "_child_order".toList) = some (if nameText ns ∈ co then co else co ++ [nameText ns]) := by
  have hfree : get? (render ns) S.nodes = none := (h.free _).2 hf
  obtain ⟨S', h1, h2, h3, h4, h5, h6, h7, h8, h9, h10, h11, h13, -⟩ := add_free is h hN hfree i t
  refine ⟨S', h1, ?_⟩
  have hbm := mem_of_get? hb
  obtain ⟨hb0, hblt, -⟩ := h.laid.comp _ b hbm
  have hclosed := Laid.closed h.laid
  obtain ⟨ms, hM, hpm⟩ := h.path _ b hbm
  obtain ⟨l, hl, -⟩ := attr_lineage h.laid h.link [] (ms.length + 1) ms b (by omega) hM (hpm ▸ hbm)
  obtain ⟨ls, m, -, -, hlm⟩ := Lin.bases hl
  have hl' := Lin.extend hclosed h5 hblt hl
  -- the child order read by `add_node_to_comp_layer`
  have hL0 := laid_addNode h.laid (render ns) [] t hfree
  have hb00 : ∀ d < S.g.size, (addNode S.g [] [t]).bases d = S.g.bases d := fun d hd => by simp [addNode, hd]
  have ho00 : ∀ d < S.g.size, (addNode S.g [] [t]).own d = S.g.own d := fun d hd => by simp [addNode, hd]
  have hread : (addNode S.g [] [t]).attr b "_child_order".toList = S.g.attr b "_child_order".toList := by
    unfold Classes.attr Classes.attr?
    rw [(Laid.mro_iff hL0 (by simp [addNode]; omega)).2 (Lin.extend hclosed hb00 hblt hl), (Laid.mro_iff h.laid hblt).2 hl,
      Option.bind_some, Option.bind_some]
    congr 1
    exact findSome?_below (Lin.below hclosed hl hblt) fun d hd => by rw [ho00 d hd]
  have hnew : (newComp S i (parentText ns) (nameText ns) t).g.own = fun d =>
      if nameText ns ∈ co then (addNode S.g [] [t]).own d
      else if d = b then Dict.set "_child_order".toList (.list ((co ++ [nameText ns]).map Val.str)) ((addNode S.g [] [t]).own b)
      else (addNode S.g [] [t]).own d := by
    unfold newComp listChild
    have hgp : get? (parentText ns) (Dict.set (Path.joinNodePath (parentText ns) (nameText ns)) S.g.size S.nodes) = some b := by
      rw [get?_set, if_neg]
      · exact hb
      · rw [join_text ns hN]
        rintro e
        rw [e, hfree] at hb; cases hb
    have hco' : Comp.childOrder [(A_CHILD_ORDER, (addNode S.g [] [t]).attr b A_CHILD_ORDER)] = co := by
      unfold Comp.childOrder
      rw [getAttr_of_get? (v := (addNode S.g [] [t]).attr b A_CHILD_ORDER) (by simp [get?])]
      have : names ((addNode S.g [] [t]).attr b A_CHILD_ORDER) = some co := by rw [← hco, ← hread]; rfl
      rw [this]; rfl
    simp only [hgp, hco']
    funext d
    by_cases hin : nameText ns ∈ co
    · rw [if_pos hin, if_pos hin]
    · rw [if_neg hin, if_neg hin, C15_disjoint co [nameText ns] hnd (by simpa using hin)]
      rfl
  have hval : ∀ d < S.g.size, S'.g.own d = if nameText ns ∈ co then S.g.own d
      else if d = b then Dict.set "_child_order".toList (.list ((co ++ [nameText ns]).map Val.str)) (S.g.own b) else S.g.own d := by
    intro d hd
    rw [h13 d hd, hnew]
    simp only
    rw [ho00 d hd, ho00 b hblt]
  by_cases hin : nameText ns ∈ co
  · rw [if_pos hin, ← hco]
    unfold Classes.attr Classes.attr?
    rw [(Laid.mro_iff h3 (by omega)).2 hl', (Laid.mro_iff h.laid hblt).2 hl, Option.bind_some, Option.bind_some]
    congr 2
    exact findSome?_below (Lin.below hclosed hl hblt) fun d hd => by rw [hval d hd, if_pos hin]
  · rw [if_neg hin]
    unfold Classes.attr Classes.attr?
    rw [(Laid.mro_iff h3 (by omega)).2 hl', Option.bind_some, hlm, List.findSome?_cons, hval b hblt, if_neg hin, if_pos rfl,
      get?_set, if_pos rfl]
    exact names_map _

/-- The history of `exCalls` is one of these. -/
theorem exCalls_planted : ∃ layers', Planted [[], []] exCalls layers' := by
  have names : ∀ q ∈ [[], [['A']], [['A'], ['x']]], Names q := by
    intro q h
    simp only [List.mem_cons, List.not_mem_nil, or_false] at h
    rcases h with rfl | rfl | rfl <;> (unfold Names IsName; decide +kernel)
  refine ⟨_, .more (ns := []) ?_ (.inl rfl) (.more (ns := [['A']]) ?_ (.inr (by decide +kernel)) (.more (ns := [['A'], ['x']]) ?_
    (.inr (by decide +kernel)) (.more (ns := [['A'], ['x']]) ?_ (.inr (by decide +kernel))
    (.more (ns := [['A']]) ?_ (.inr (by decide +kernel)) .done))))⟩
  · exact addable_of [] (fun _ h => nomatch h) (by decide +kernel) (names _ (by simp)) rfl rfl rfl (exSpec_table _ _ _)
      (fun _ _ h => nomatch h) (fun h => absurd rfl h)
  · exact addable_of [[], [['A']]] (fun q h => names q (List.mem_append_left [[['A'], ['x']]] h)) (by decide +kernel)
      (names _ (by simp)) rfl rfl rfl (exSpec_table _ _ _)
      (fun _ => by decide +kernel) (fun _ => .inr ⟨[], ['A'], [], rfl, by decide +kernel⟩)
  · exact addable_of _ names (by decide +kernel) (names _ (by simp)) rfl rfl rfl (exSpec_table _ _ _)
      (fun _ => by decide +kernel) (fun _ => .inr ⟨[], ['A'], [['x']], rfl, by decide +kernel⟩)
  · exact addable_of _ names (by decide +kernel) (names _ (by simp)) rfl rfl rfl (exSpec_table _ _ _)
      (fun _ => by decide +kernel) (fun _ => .inl ⟨1, _, by decide, rfl, by decide +kernel⟩)
  · exact addable_of _ names (by decide +kernel) (names _ (by simp)) rfl rfl rfl (exSpec_table _ _ _)
      (fun h => absurd h (by decide +kernel)) (fun _ => .inl ⟨1, _, by decide, rfl, by decide +kernel⟩)

/-- A stronger layer gives the world another code; `/A` has none. -/
example : exCode (exCalls ++ [exCall 0 [] (.list [.str "new".toList]) []]) "/".toList = some (some ["new".toList]) ∧
    exCode exCalls "/A".toList = some (some []) := by decide +kernel

/-- The child order of the world after the calls. -/
example : (match adds (fun _ _ => false) emptyStage [exCall 0 [] .none [(A_CHILD_ORDER, .list [])], exCall 0 [['B']] .none [],
      exCall 0 [['A']] .none []] with
    | none => none
    | some S => (get? "/".toList S.nodes).bind (fun c => NodeData.names (S.g.attr c A_CHILD_ORDER))) = some [['B'], ['A']] := by
  decide +kernel

end Nxt.Props
