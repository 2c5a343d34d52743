import Verif.Spec.Start
import Verif.Props.Times
import Verif.Props.Exec
/-!
# Property C117: what is run when a stage is executed
-/
namespace Nxt.Props
open Dict Path Spec Tree Exec

namespace Starting

theorem above_irrefl (a : Str) : ¬ Above a a := by
  rintro ⟨ns, rest, h1, h2, h3, h4⟩
  have := render_inj (names_append.1 h1).1 h1 (h3.symm.trans h4)
  exact h2 (by simpa using this.symm)

/-- The roots of a chain from a root have one name. -/
theorem chain_single {nodes : Nodes} (T : TreeOk nodes) {p : Str} {l : List Str} (h : ExecChain nodes p l)
    (hp : (∃ x, Names [x] ∧ p = render [x]) ∧ p ∈ keys nodes) :
    ∀ r ∈ l, (∃ x, Names [x] ∧ r = render [x]) ∧ r ∈ keys nodes := by
  induction h with
  | last _ => simpa using hp
  | @cons p q l hq hl ih =>
    have hq' : (∃ x, Names [x] ∧ q = render [x]) ∧ q ∈ keys nodes := by
      refine ⟨?_, nextRoot_mem hq⟩
      obtain ⟨A, n, B, h1, h2, -⟩ := hq
      rcases T.node q n (by rw [h1]; simp) with ⟨h, h'⟩ | ⟨ms, z, m1, m2, m3, -⟩
      · rw [h'.1] at h2; cases h2
      · have : ms = [] := by
          rw [m3] at h2
          exact (render_eq_world (names_append.1 m1).1).1 h2
        subst this
        exact ⟨z, m1, m2⟩
    intro r hr
    rcases List.mem_cons.1 hr with rfl | hr
    · exact hp
    · exact ih hq' r hr

/-- What is above a node below a root is the world, the root, or below the root. -/
theorem above_cases {nodes : Nodes} {x : Str} (hx : Names [x]) {q : Str} (hq : IsDescendant nodes (render [x]) q) {a : Str}
    (ha : Above a q) (hw : a ≠ ['/']) : a = render [x] ∨ IsDescendant nodes (render [x]) a := by
  obtain ⟨ns, rest, h1, h2, h3, rfl, h5⟩ := hq
  have := render_inj hx (names_append.1 h1).1 h3
  subst this
  obtain ⟨ms, more, k1, k2, rfl, k4⟩ := ha
  have e := render_inj h1 k1 k4
  cases ms with
  | nil => exact absurd render_nil hw
  | cons m ms =>
    simp only [List.cons_append, List.nil_append, List.cons.injEq] at e
    obtain ⟨rfl, rfl⟩ := e
    cases ms with
    | nil => exact .inl rfl
    | cons y ms =>
      refine .inr ⟨[x], y :: ms, (names_append.1 k1).1, by simp, rfl, rfl, fun a b hab ha => ?_⟩
      exact h5 a (b ++ more) (by rw [hab]; simp) ha

theorem block_ok {nodes : Nodes} {kids : Str → Nodes} (T : TreeOk nodes) (K : KidsOk nodes kids) {x : Str} (hx : Names [x])
    (hk : render [x] ∈ keys nodes) {fuel : Nat} {D : List Str}
    (hD : descendantsOrdered nodes kids false fuel (render [x]) = some D) :
    Block nodes (render [x]) (rootBlock nodes D (render [x])) := by
  obtain ⟨l1, l2, l3⟩ := listing_spec T K hx (by simp) hk hD
  have l4 := listing_anc hx l2 l3
  have hxw : render [x] ≠ ['/'] := fun h => by simpa using (render_eq_world hx).1 h
  have hrD : render [x] ∉ D := by
    intro h
    obtain ⟨ns, rest, h1, h2, h3, h4, -⟩ := (l2 _).1 h
    have := render_inj (names_append.1 h1).1 h1 (h3.symm.trans h4)
    exact h2 (by simpa using this.symm)
  have hmem : ∀ q, q ∈ rootBlock nodes D (render [x]) ↔
      (q = render [x] ∨ IsDescendant nodes (render [x]) q) ∧ Live nodes q := by
    intro q
    unfold rootBlock
    by_cases hoff : Off nodes (render [x])
    · rw [if_pos hoff]
      simp only [List.not_mem_nil, false_iff]
      rintro ⟨h | h, hl⟩
      · exact hl _ (.inl rfl) (h ▸ hxw) (h ▸ hoff)
      · obtain ⟨ns, rest, h1, h2, h3, h4, -⟩ := h
        exact hl _ (.inr ⟨ns, rest, h1, h2, h3, h4⟩) hxw hoff
    · rw [if_neg hoff, List.mem_cons]
      unfold running
      rw [List.mem_filter]
      simp only [decide_eq_true_eq]
      constructor
      · rintro (rfl | ⟨h, hr⟩)
        · refine ⟨.inl rfl, ?_⟩
          rintro a (rfl | ha) hw
          · exact hoff
          · obtain ⟨ns, rest, h1, h2, rfl, h4⟩ := ha
            have e := render_inj hx h1 h4
            cases ns with
            | nil => exact absurd render_nil hw
            | cons m ms =>
              simp only [List.cons_append, List.cons.injEq] at e
              exact absurd (List.append_eq_nil_iff.1 e.2.symm).2 h2
        · have hd := (l2 q).1 h
          refine ⟨.inr hd, ?_⟩
          rintro a (rfl | ha) hw
          · exact hr _ h (.inl rfl)
          · rcases above_cases hx hd ha hw with rfl | had
            · exact hoff
            · exact hr a ((l2 a).2 had) (.inr ha)
      · rintro ⟨h | h, hl⟩
        · exact .inl h
        · refine .inr ⟨(l2 q).2 h, fun a ha haq => ?_⟩
          refine hl a haq ?_
          obtain ⟨ns, n1, n2, n3⟩ := listing_proper ((l2 a).1 ha)
          rw [n3]
          exact fun hh => n2 ((render_eq_world n1).1 hh)
  refine ⟨hmem, ?_, ?_⟩
  · unfold rootBlock
    split
    · exact List.nodup_nil
    · exact List.nodup_cons.2 ⟨fun h => hrD (List.mem_filter.1 h).1, l1.filter _⟩
  · intro A q B hs a ha hab
    unfold rootBlock at hs ha
    by_cases hoff : Off nodes (render [x])
    · rw [if_pos hoff] at ha; cases ha
    · rw [if_neg hoff] at hs ha
      cases A with
      | nil =>
        simp only [List.nil_append, List.cons.injEq] at hs
        obtain ⟨rfl, -⟩ := hs
        exfalso
        rcases List.mem_cons.1 ha with rfl | ha
        · exact above_irrefl _ hab
        · have had := (l2 a).1 (List.mem_filter.1 ha).1
          obtain ⟨ns, rest, h1, h2, h3, h4, -⟩ := had
          exact above_irrefl _ (above_trans (⟨ns, rest, h1, h2, h3, h4⟩ : Above (render [x]) a) hab)
      | cons c A =>
        simp only [List.cons_append, List.cons.injEq] at hs
        obtain ⟨rfl, hs⟩ := hs
        rcases List.mem_cons.1 ha with rfl | ha
        · exact List.mem_cons_self
        · refine List.mem_cons_of_mem _ ?_
          unfold running at hs
          obtain ⟨D1, D2, d1, d2, d3⟩ := List.filter_eq_append_iff.1 hs
          obtain ⟨D3, D4, d4, d5, d6, d7⟩ := List.filter_eq_cons_iff.1 d3
          have hin := l4 (D1 ++ D3) q D4 (by rw [d1, d4, List.append_assoc]) a (List.mem_filter.1 ha).1 hab
          rw [← d2]
          rcases List.mem_append.1 hin with h | h
          · exact List.mem_filter.2 ⟨h, (List.mem_filter.1 ha).2⟩
          · exact absurd (List.mem_filter.1 ha).2 (d5 a h)

/-- What is run of a list of nodes which are there and not switched off. -/
theorem run_all {σ : Type} {nodes : Nodes} {look : σ → Str → Option Val} {run : Str → σ → Times → Outcome × σ × Times}
    (clock : σ → Int) (hk : KeepsTimes run) (hl : ∀ p s ts, look (run p s ts).2.1 = look s) {s : σ}
    (hlook : ∀ q, look s q = (get? q nodes).map LNode.enabled) {ts : Times} (hc : AllClosed ts) {order : List Str}
    (ho : ∀ q ∈ order, q ∈ keys nodes ∧ ¬ Off nodes q) {e : End} {s' : σ} {ts' : Times} {tr : List (Str × Outcome)}
    (h : execLoop look run clock order s ts = (e, s', ts', tr)) :
    ∃ B, order = tr.map (fun x => x.1) ++ B ∧
      ((e = .done ∧ B = [] ∧ ∀ x ∈ tr, x.2 = .ok ∨ x.2 = .exitNode) ∨
        ∃ tr' x, tr = tr' ++ [x] ∧ (∀ y ∈ tr', y.2 = .ok ∨ y.2 = .exitNode) ∧
          ((e = .exitGraph ∧ x.2 = .exitGraph) ∨ (e = .error ∧ x.2 = .error))) := by
  obtain ⟨-, -, A, B, h1, -, h3, h4⟩ := C38_loop look run clock hk hl order s ts hc e s' ts' tr h
  have hA : A.filter (fun p => notOff (look s p)) = A := by
    refine List.filter_eq_self.2 (fun q hq => ?_)
    obtain ⟨k1, k2⟩ := ho q (by rw [h1]; exact List.mem_append_left _ hq)
    obtain ⟨n, hn⟩ := Option.isSome_iff_exists.1 (get?_isSome.2 k1)
    rw [hlook, hn]
    show notOff (some n.enabled) = true
    cases hen : n.enabled with
    | bool b =>
      cases b with
      | true => rfl
      | false => exact absurd ⟨n, hn, by rw [hen]; simp, by rw [hen]; rfl⟩ k2
    | _ => rfl
  rw [hA] at h3
  refine ⟨B, by rw [h3, h1], ?_⟩
  rcases h4 with h4 | ⟨_, ⟨p, B', rfl, hp⟩, -⟩ | ⟨tr', x, t1, -, t3, t4⟩
  · exact .inl h4
  · exfalso
    obtain ⟨k1, -⟩ := ho p (by rw [h1]; exact List.mem_append_right _ List.mem_cons_self)
    rw [hlook] at hp
    obtain ⟨n, hn⟩ := Option.isSome_iff_exists.1 (get?_isSome.2 k1)
    rw [hn] at hp
    cases hp
  · exact .inr ⟨tr', x, t1, t3, t4⟩

/-- The whole order from a root. -/
theorem order_root {nodes : Nodes} {kids : Str → Nodes} (T : TreeOk nodes) (K : KidsOk nodes kids) {x : Str}
    (hx : Names [x]) (hk : render [x] ∈ keys nodes) (hc : ¬ Cyclic nodes (render [x])) :
    ∃ N, ∀ fuel, N ≤ fuel → ∃ (roots : List Str) (block : Str → List Str), ExecChain nodes (render [x]) roots ∧
      roots.Nodup ∧ (∀ r ∈ roots, Block nodes r (block r)) ∧
      (∀ r ∈ roots, (∃ z, Names [z] ∧ r = render [z]) ∧ r ∈ keys nodes) ∧
      execOrder nodes kids fuel (render [x]) = some (roots.flatMap block) := by
  obtain ⟨N, hN⟩ := C36_terminates nodes kids T K x [] hx hk hc
  refine ⟨max N ((keys nodes).length + 1), fun fuel hf => ?_⟩
  obtain ⟨roots, D, hr, hD, -⟩ := hN fuel (by omega)
  have hch := (C37_chain _ _ _).1 ⟨_, hr⟩
  have hsing := chain_single T hch ⟨⟨x, hx, rfl⟩, hk⟩
  obtain ⟨l, hl, hnd⟩ := C37_terminates nodes (render [x]) hc fuel (by omega)
  rw [hr] at hl
  cases hl
  refine ⟨roots, fun r => rootBlock nodes (D r) r, hch, hnd, fun r hr' => ?_, hsing,
    C36_from_root nodes kids T K fuel x hx hk roots hr D hD⟩
  obtain ⟨⟨z, hz, rfl⟩, hzk⟩ := hsing r hr'
  exact block_ok T K hz hzk (hD _ hr')

theorem desc_mem {nodes : Nodes} {p q : Str} (h : IsDescendant nodes p q) : q ∈ keys nodes := by
  obtain ⟨ns, rest, h1, h2, -, rfl, h5⟩ := h
  exact h5 rest [] (by simp) h2

theorem split_unique {A C E F : List Str} {q : Str} (h : A ++ q :: F = C ++ q :: E) (hn : (A ++ q :: F).Nodup) : A = C := by
  induction A generalizing C with
  | nil =>
    cases C with
    | nil => rfl
    | cons c C =>
      simp only [List.nil_append, List.cons_append, List.cons.injEq] at h
      obtain ⟨rfl, rfl⟩ := h
      simp at hn
  | cons a A ih =>
    cases C with
    | nil =>
      simp only [List.nil_append, List.cons_append, List.cons.injEq] at h
      obtain ⟨rfl, -⟩ := h
      simp at hn
    | cons c C =>
      simp only [List.cons_append, List.cons.injEq] at h
      obtain ⟨rfl, h⟩ := h
      rw [ih h (List.nodup_cons.1 hn).2]

/-- No node is run twice by one execution from a root, and each node runs after all the nodes above it, the world apart.
-/
theorem once {nodes : Nodes} (T : TreeOk nodes) {x : Str} (hx : Names [x]) (hk : render [x] ∈ keys nodes)
    {roots : List Str} (h1 : ExecChain nodes (render [x]) roots) (h2 : roots.Nodup) {block : Str → List Str}
    (h3 : ∀ r ∈ roots, Block nodes r (block r)) {ran left : List Str} (h : roots.flatMap block = ran ++ left) :
    ran.Nodup ∧ ∀ A q B, ran = A ++ q :: B → ∀ a, Above a q → a ≠ ['/'] → a ∈ A := by
  have h4 := chain_single T h1 ⟨⟨x, hx, rfl⟩, hk⟩
  have hroot : ∀ r ∈ roots, ∀ q ∈ block r, ∃ z rest, Names (z :: rest) ∧ r = render [z] ∧ q = render (z :: rest) := by
    intro r hr q hq
    obtain ⟨⟨z, hz, rfl⟩, -⟩ := h4 r hr
    rcases (((h3 _ hr).mem q).1 hq).1 with rfl | hd
    · exact ⟨z, [], hz, rfl, rfl⟩
    · obtain ⟨ns, rest, n1, n2, n3, n4, -⟩ := hd
      have := render_inj hz (names_append.1 n1).1 n3
      subst this
      exact ⟨z, rest, n1, rfl, n4⟩
  have hnd : (roots.flatMap block).Nodup := by
    unfold List.Nodup
    rw [List.pairwise_flatMap]
    refine ⟨fun r hr => (h3 r hr).nodup, ?_⟩
    refine List.Pairwise.imp_of_mem ?_ h2
    intro r r' hr hr' hne q hq q' hq' he
    subst he
    obtain ⟨z, rest, a1, a2, a3⟩ := hroot r hr q hq
    obtain ⟨z', rest', b1, b2, b3⟩ := hroot r' hr' q hq'
    have := render_inj a1 b1 (a3.symm.trans b3)
    simp only [List.cons.injEq] at this
    exact hne (by rw [a2, b2, this.1])
  refine ⟨(List.nodup_append.1 (h ▸ hnd)).1, fun A q B hs a ha hw => ?_⟩
  have hqm : q ∈ roots.flatMap block := by rw [h, hs]; simp
  obtain ⟨r, hr, hqr⟩ := List.mem_flatMap.1 hqm
  obtain ⟨⟨z, hz, rfl⟩, -⟩ := h4 r hr
  have hblk := h3 _ hr
  obtain ⟨hd, hlive⟩ := (hblk.mem q).1 hqr
  have hd' : IsDescendant nodes (render [z]) q := by
    rcases hd with rfl | hd
    · obtain ⟨ns, rest, n1, n2, rfl, n4⟩ := ha
      have e := render_inj hz n1 n4
      cases ns with
      | nil => exact absurd render_nil hw
      | cons m ms =>
        simp only [List.cons_append, List.cons.injEq] at e
        exact absurd (List.append_eq_nil_iff.1 e.2.symm).2 n2
    · exact hd
  have har : a ∈ block (render [z]) := by
    refine (hblk.mem a).2 ⟨above_cases hz hd' ha hw, fun b hb hbw => hlive b ?_ hbw⟩
    rcases hb with rfl | hb
    · exact .inr ha
    · exact .inr (above_trans hb ha)
  obtain ⟨R1, R2, rfl⟩ := List.append_of_mem hr
  obtain ⟨A', B', hAB⟩ := List.append_of_mem hqr
  have haA' := hblk.order A' q B' hAB a har ha
  have hsplit : A ++ q :: (B ++ left) = (R1.flatMap block ++ A') ++ q :: (B' ++ R2.flatMap block) := by
    have : (R1 ++ render [z] :: R2).flatMap block = A ++ q :: (B ++ left) := by rw [h, hs]; simp
    rw [← this, List.flatMap_append, List.flatMap_cons, hAB]
    simp
  have hnd2 : (A ++ q :: (B ++ left)).Nodup := by
    have : (R1 ++ render [z] :: R2).flatMap block = A ++ q :: (B ++ left) := by rw [h, hs]; simp
    rw [← this]; exact hnd
  have hA : A = R1.flatMap block ++ A' := split_unique hsplit hnd2
  rw [hA]
  exact List.mem_append_right _ haA'

end Starting

/-- C117: executing from a root.  The nodes run are taken in turn from the blocks of the roots in the chain of the root,
where a block has exactly those nodes of a root which are live, each once, each after those above it.  So no node is
run twice, and each is run after all nodes above it, the world apart.  The execution runs all of them unless a node
ends it with an error or by leaving the graph, which are the only other ends. -/
theorem C117_root {σ : Type} (nodes : Nodes) (kids : Str → Nodes) (T : TreeOk nodes) (K : KidsOk nodes kids)
    (point : Str → Val) {x : Str} (hx : Names [x]) (hk : render [x] ∈ keys nodes) (hc : ¬ Cyclic nodes (render [x]))
    (look : σ → Str → Option Val) (run : Str → σ → Times → Outcome × σ × Times) (clock : σ → Int) (hkt : KeepsTimes run)
    (hl : ∀ p s ts, look (run p s ts).2.1 = look s) (s : σ) (hlook : ∀ q, look s q = (get? q nodes).map LNode.enabled)
    (ts : Times) (hts : AllClosed ts) :
    ∃ N, ∀ fuel, N ≤ fuel → ∃ (e : End) (s' : σ) (ts' : Times) (tr : List (Str × Outcome)) (roots : List Str)
        (block : Str → List Str) (left : List Str),
      Start.execute nodes kids point fuel look run clock (.path (render [x])) s ts = .ok (e, s', ts', tr) ∧
      ExecChain nodes (render [x]) roots ∧ roots.Nodup ∧ (∀ r ∈ roots, Block nodes r (block r)) ∧
      roots.flatMap block = tr.map (fun y => y.1) ++ left ∧ (tr.map (fun y => y.1)).Nodup ∧
      (∀ A q B, tr.map (fun y => y.1) = A ++ q :: B → ∀ a, Above a q → a ≠ ['/'] → a ∈ A) ∧
      ((e = .done ∧ left = [] ∧ ∀ y ∈ tr, y.2 = .ok ∨ y.2 = .exitNode) ∨
        ∃ tr' y, tr = tr' ++ [y] ∧ (∀ z ∈ tr', z.2 = .ok ∨ z.2 = .exitNode) ∧
          ((e = .exitGraph ∧ y.2 = .exitGraph) ∨ (e = .error ∧ y.2 = .error))) := by
  obtain ⟨N, hN⟩ := Starting.order_root T K hx hk hc
  refine ⟨N, fun fuel hf => ?_⟩
  obtain ⟨roots, block, h1, h2, h3, h4, h5⟩ := hN fuel hf
  obtain ⟨e, s', ts', tr, he⟩ : ∃ e s' ts' tr, execLoop look run clock (roots.flatMap block) s ts = (e, s', ts', tr) :=
    ⟨_, _, _, _, rfl⟩
  have ho : ∀ q ∈ roots.flatMap block, q ∈ keys nodes ∧ ¬ Off nodes q := by
    intro q hq
    obtain ⟨r, hr, hqr⟩ := List.mem_flatMap.1 hq
    obtain ⟨hd, hlive⟩ := ((h3 r hr).mem q).1 hqr
    obtain ⟨⟨z, hz, rfl⟩, hzk⟩ := h4 r hr
    rcases hd with rfl | hd
    · exact ⟨hzk, hlive _ (.inl rfl) (fun h => by simpa using (render_eq_world hz).1 h)⟩
    · refine ⟨Starting.desc_mem hd, hlive _ (.inl rfl) ?_⟩
      obtain ⟨ns, n1, n2, rfl⟩ := listing_proper hd
      exact fun hh => n2 ((render_eq_world n1).1 hh)
  obtain ⟨left, k1, k2⟩ := Starting.run_all clock hkt hl hlook hts ho he
  obtain ⟨o1, o2⟩ := Starting.once T hx hk h1 h2 h3 k1
  refine ⟨e, s', ts', tr, roots, block, left, ?_, h1, h2, h3, k1, o1, o2, k2⟩
  unfold Start.execute Start.startPath
  simp only [if_pos hk, h5, he]

/-- C117, partial: executing from a node inside a root.  Of the root, what is run are those nodes from the start node on, in the
listing of the root, which are not switched off nor below a node of the listing which is; then the blocks of the other
roots follow as before.

Missing: a root which is switched off (see `C36_disabled_root_violation`) does not keep its nodes from running here. -/
theorem C117_inside_partial {σ : Type} (nodes : Nodes) (kids : Str → Nodes) (T : TreeOk nodes) (K : KidsOk nodes kids)
    (point : Str → Val) {x : Str} {rest : List Str} (hx : Names (x :: rest)) (h0 : rest ≠ [])
    (hd : IsDescendant nodes (render [x]) (render (x :: rest))) (hk : render [x] ∈ keys nodes)
    (hc : ¬ Cyclic nodes (render [x])) (look : σ → Str → Option Val) (run : Str → σ → Times → Outcome × σ × Times)
    (clock : σ → Int) (hkt : KeepsTimes run) (hl : ∀ p s ts, look (run p s ts).2.1 = look s) (s : σ)
    (hlook : ∀ q, look s q = (get? q nodes).map LNode.enabled) (ts : Times) (hts : AllClosed ts) :
    ∃ N, ∀ fuel, N ≤ fuel → ∃ (e : End) (s' : σ) (ts' : Times) (tr : List (Str × Outcome)) (roots D : List Str)
        (block : Str → List Str) (left : List Str),
      Start.execute nodes kids point fuel look run clock (.path (render (x :: rest))) s ts = .ok (e, s', ts', tr) ∧
      ExecChain nodes (render [x]) (render [x] :: roots) ∧ descendantsOrdered nodes kids false fuel (render [x]) = some D ∧
      (∀ r ∈ roots, Block nodes r (block r)) ∧
      running nodes D (D.dropWhile (fun q => decide (q ≠ render (x :: rest)))) ++ roots.flatMap block =
        tr.map (fun y => y.1) ++ left ∧
      ((e = .done ∧ left = [] ∧ ∀ y ∈ tr, y.2 = .ok ∨ y.2 = .exitNode) ∨
        ∃ tr' y, tr = tr' ++ [y] ∧ (∀ z ∈ tr', z.2 = .ok ∨ z.2 = .exitNode) ∧
          ((e = .exitGraph ∧ y.2 = .exitGraph) ∨ (e = .error ∧ y.2 = .error))) := by
  have hx1 : Names [x] := (names_append.1 (show Names ([x] ++ rest) from hx)).1
  obtain ⟨N, hN⟩ := C36_terminates nodes kids T K x [] hx1 hk hc
  refine ⟨N, fun fuel hf => ?_⟩
  obtain ⟨all, D, hr, hD, -⟩ := hN fuel hf
  have hch := (C37_chain _ _ _).1 ⟨_, hr⟩
  have hsing := Starting.chain_single T hch ⟨⟨x, hx1, rfl⟩, hk⟩
  obtain ⟨roots, rfl⟩ : ∃ roots, all = render [x] :: roots := by cases hch <;> exact ⟨_, rfl⟩
  obtain ⟨-, l2, -⟩ := listing_spec T K hx1 (by simp) hk (hD _ List.mem_cons_self)
  have horder := C36_from_inside_partial nodes kids T K fuel x rest hx h0 hk roots hr D hD ((l2 _).2 hd)
  have hblk : ∀ r ∈ roots, Block nodes r (rootBlock nodes (D r) r) := by
    intro r hr'
    obtain ⟨⟨z, hz, rfl⟩, hzk⟩ := hsing r (List.mem_cons_of_mem _ hr')
    exact Starting.block_ok T K hz hzk (hD _ (List.mem_cons_of_mem _ hr'))
  generalize hO : running nodes (D (render [x])) ((D (render [x])).dropWhile (fun q => decide (q ≠ render (x :: rest)))) ++
    roots.flatMap (fun r => rootBlock nodes (D r) r) = order at horder
  have ho : ∀ q ∈ order, q ∈ keys nodes ∧ ¬ Off nodes q := by
    intro q hq
    rw [← hO] at hq
    rcases List.mem_append.1 hq with hq | hq
    · obtain ⟨q1, q2⟩ := List.mem_filter.1 hq
      have hqD : q ∈ D (render [x]) := (List.dropWhile_sublist _).mem q1
      exact ⟨Starting.desc_mem ((l2 q).1 hqD), (by simpa using q2 : Runs nodes (D (render [x])) q) q hqD (.inl rfl)⟩
    · obtain ⟨r, hr', hqr⟩ := List.mem_flatMap.1 hq
      obtain ⟨hd, hlive⟩ := ((hblk r hr').mem q).1 hqr
      obtain ⟨⟨z, hz, rfl⟩, hzk⟩ := hsing r (List.mem_cons_of_mem _ hr')
      rcases hd with rfl | hd
      · exact ⟨hzk, hlive _ (.inl rfl) (fun h => by simpa using (render_eq_world hz).1 h)⟩
      · refine ⟨Starting.desc_mem hd, hlive _ (.inl rfl) ?_⟩
        obtain ⟨ns, n1, n2, rfl⟩ := listing_proper hd
        exact fun hh => n2 ((render_eq_world n1).1 hh)
  obtain ⟨e, s', ts', tr, he⟩ : ∃ e s' ts' tr, execLoop look run clock order s ts = (e, s', ts', tr) := ⟨_, _, _, _, rfl⟩
  obtain ⟨left, k1, k2⟩ := Starting.run_all clock hkt hl hlook hts ho he
  refine ⟨e, s', ts', tr, roots, D (render [x]), fun r => rootBlock nodes (D r) r, left, ?_, hch, hD _ List.mem_cons_self,
    hblk, by rw [hO, k1], k2⟩
  unfold Start.execute Start.startPath
  simp only [if_pos (Starting.desc_mem hd), horder, he]

/-- C117: a start node which is not there is refused. -/
theorem C117_missing {σ : Type} (nodes : Nodes) (kids : Str → Nodes) (point : Str → Val) (fuel : Nat)
    (look : σ → Str → Option Val) (run : Str → σ → Times → Outcome × σ × Times) (clock : σ → Int) {p : Str}
    (hp : p ∉ keys nodes) (s : σ) (ts : Times) :
    Start.execute nodes kids point fuel look run clock (.path p) s ts = .error .notFound := by
  unfold Start.execute Start.startPath
  simp only [if_neg hp]

/-- C117: without a path to start from, whatever is given instead, the execution is that from the first node of the layer, the world apart, which has a
true start point; without such a node it is refused. -/
theorem C117_first {σ : Type} {nodes : Nodes} (hok : Ok nodes) (kids : Str → Nodes) (point : Str → Val) (fuel : Nat)
    (look : σ → Str → Option Val) (run : Str → σ → Times → Outcome × σ × Times) (clock : σ → Int) (v : Val) (s : σ) (ts : Times) :
    (∃ p, FirstStart nodes point p ∧ Start.execute nodes kids point fuel look run clock (.other v) s ts =
      Start.execute nodes kids point fuel look run clock (.path p) s ts) ∨
    ((∀ p ∈ keys nodes, p ≠ ['/'] → (point p).truthy = false) ∧
      Start.execute nodes kids point fuel look run clock (.other v) s ts = .error .noStart) := by
  cases hs : Start.startNodes nodes point with
  | nil =>
    refine .inr ⟨fun p hp hw => ?_, ?_⟩
    · obtain ⟨n, hn⟩ := Option.isSome_iff_exists.1 (get?_isSome.2 hp)
      have hm := mem_of_get? hn
      unfold Start.startNodes at hs
      rw [List.map_eq_nil_iff, List.filter_eq_nil_iff] at hs
      have := hs (p, n) (List.mem_filter.2 ⟨hm, decide_eq_true hw⟩)
      simpa using this
    · unfold Start.execute Start.startPath
      simp only [hs]
  | cons p l =>
    left
    unfold Start.startNodes at hs
    obtain ⟨e, l', h1, h2, h3⟩ := List.map_eq_cons_iff.1 hs
    rw [List.filter_filter] at h1
    obtain ⟨A, B, h4, h5, h6, h7⟩ := List.filter_eq_cons_iff.1 h1
    obtain ⟨q, n⟩ := e
    simp only at h2
    subst h2
    simp only [Bool.and_eq_true, decide_eq_true_eq] at h6
    refine ⟨q, ⟨A, n, B, h4, h6.2, h6.1, fun e he hw => ?_⟩, ?_⟩
    · have := h5 e he
      simp only [Bool.and_eq_true, decide_eq_true_eq, not_and] at this
      cases ht : (point e.1).truthy with
      | false => rfl
      | true => exact absurd hw (this ht)
    · have hqk : q ∈ keys nodes := by rw [h4]; simp [keys]
      unfold Start.execute Start.startPath
      simp only [if_pos hqk]
      have : Start.startNodes nodes point = q :: l := by unfold Start.startNodes; exact hs
      simp only [this]

/-- Two roots, both with a start point. -/
def exStarts : Nodes := [
  ("/a".toList, ⟨"a".toList, "/".toList, [], .none, .none⟩),
  ("/a/x".toList, ⟨"x".toList, "/a".toList, [], .bool false, .none⟩),
  ("/a/y".toList, ⟨"y".toList, "/a".toList, [], .none, .none⟩),
  ("/b".toList, ⟨"b".toList, "/".toList, [], .none, .none⟩)]

/-- The nodes run, when every node runs well. -/
def exStarted (a : Start.Arg) : Option (List Str) :=
  match Start.execute exStarts (scan (fun a b => a == b) exStarts)
      (fun p => .bool (p == "/a".toList || p == "/b".toList)) 9
      (fun (_ : Unit) p => (get? p exStarts).map LNode.enabled) (fun _ s ts => (.ok, s, ts)) (fun _ => 0) a () [] with
  | .ok r => some (r.2.2.2.map (fun x => x.1))
  | .error _ => none

example : exStarted (.path "/b".toList) = some ["/b".toList] ∧ exStarted (.path "/c".toList) = none := by decide +kernel

/-- C117 is violated by indices: the documentation of `execute` says that a start can be the index of a start point and that an
index which is not found is an error; but whatever is given that is not a text is ignored. -/
theorem C117_index_violation : exStarted (.other (.num 1)) = some ["/a".toList, "/a/y".toList] ∧
    exStarted (.other (.num 7)) = some ["/a".toList, "/a/y".toList] := by decide +kernel

/-- C117 is violated by cycles: when the chain of roots comes back to a root, the search for the order does not end, and
nothing is run. -/
theorem C117_cycle_violation {σ : Type} (nodes : Nodes) (kids : Str → Nodes) (point : Str → Val) (fuel : Nat)
    (look : σ → Str → Option Val) (run : Str → σ → Times → Outcome × σ × Times) (clock : σ → Int) {x : Str} {rest : List Str}
    (hx : Names (x :: rest)) (hk : render (x :: rest) ∈ keys nodes) (hc : Cyclic nodes (render [x])) (s : σ) (ts : Times) :
    Start.execute nodes kids point fuel look run clock (.path (render (x :: rest))) s ts = .error .noOrder := by
  have ho : execOrder nodes kids fuel (render (x :: rest)) = none := by
    unfold execOrder
    rw [if_neg (fun h => by simpa using (render_eq_world hx).1 h), C11_root (x :: rest) hx,
      show render ((x :: rest).take 1) = render [x] from rfl, C37_cycle_violation nodes _ hc]
  unfold Start.execute Start.startPath
  simp only [if_pos hk, ho]

/-- C117: starting at the world runs nothing. -/
theorem C117_world {σ : Type} (nodes : Nodes) (kids : Str → Nodes) (point : Str → Val) (fuel : Nat)
    (look : σ → Str → Option Val) (run : Str → σ → Times → Outcome × σ × Times) (clock : σ → Int)
    (hw : ['/'] ∈ keys nodes) (s : σ) (ts : Times) :
    Start.execute nodes kids point fuel look run clock (.path ['/']) s ts = .ok (.done, s, ts, []) := by
  unfold Start.execute Start.startPath
  simp only [if_pos hw]
  rfl

/-- C117: the function `execute` for code takes either a list of paths or a start, one of them and not both empty, and
passes it on. -/
theorem C117_helper (ps : List Str) (p : Str) :
    Start.helper (.seq ps) (.path p) =
      if ps = [] then (if p = [] then .valueError else .fromStart (.path p))
      else if p = [] then .nodes ps else .valueError := by
  unfold Start.helper
  cases ps <;> cases p <;> simp [Start.Paths.truthy, Start.Arg.truthy]

/-- C117: other values instead of a list of paths are refused, even when they are false. -/
theorem C117_helper_other (v : Val) (a : Start.Arg) : Start.helper (.other v) a = .valueError := rfl

/-- C117: other values as start count as given when they are true; then they are ignored by `C117_index_violation`. -/
theorem C117_helper_start (ps : List Str) (v : Val) :
    Start.helper (.seq ps) (.other v) =
      if v.truthy then (if ps = [] then .fromStart (.other v) else .valueError)
      else if ps = [] then .valueError else .nodes ps := by
  unfold Start.helper
  cases ps <;> cases hv : v.truthy <;> simp [Start.Paths.truthy, Start.Arg.truthy, hv]

/-- C117: custom code is recorded as a finished run whatever happens; leaving the node or the graph is returned, an error
is raised. -/
theorem C117_custom {σ : Type} (run : Str → σ → Times → Outcome × σ × Times) (clock : σ → Int) (hk : KeepsTimes run) (p : Str)
    (s : σ) (ts : Times) (hc : AllClosed ts) :
    let r := run p s (enter ts p (clock s))
    ∃ more ts', ts' = ts ++ (p, clock s, some (clock r.2.1)) :: more ∧ AllClosed ts' ∧
      Start.custom run clock p s ts =
        ((match r.1 with
          | .ok => .done
          | .exitNode => .returned .exitNode
          | .exitGraph => .returned .exitGraph
          | .error => .raised), r.2.1, ts') := by
  intro r
  obtain ⟨more, d, h1, h2, -⟩ := loop_node run hk clock p s ts hc
  refine ⟨more, _, rfl, h2, ?_⟩
  unfold Start.custom
  simp only [h1]
  show (match r.1 with | .ok => _ | .error => _ | o => _) = _
  cases hr : r.1 <;> rfl

theorem closeFirst_none {p : Str} {t : Int} {ts : Times} (h : ∀ e ∈ ts, e.1 = p → e.2.2 ≠ none) :
    closeFirst p t ts = none := by
  induction ts with
  | nil => rfl
  | cons e ts ih =>
    obtain ⟨q, a, b⟩ := e
    rw [closeFirst, if_neg (fun hh => h _ List.mem_cons_self hh.1 hh.2), ih (fun x hx => h x (List.mem_cons_of_mem _ hx))]
    rfl

/-- C117: custom code which leaves no open run of its node, as code does which sets the end of it itself, ends in an
error of the times whatever came of the code. -/
theorem C117_custom_closed {σ : Type} (run : Str → σ → Times → Outcome × σ × Times) (clock : σ → Int) (p : Str)
    (s : σ) (ts : Times) (o : Outcome) (s' : σ) (ts' : Times) (hr : run p s (ts ++ [(p, clock s, none)]) = (o, s', ts'))
    (h : ∀ e ∈ ts', e.1 = p → e.2.2 ≠ none) : Start.custom run clock p s ts = (.timeError, s', ts') := by
  unfold Start.custom enter
  rw [hr]
  unfold exit
  dsimp only
  rw [closeFirst_none h]
  dsimp only
  by_cases hr' : runsOf ts' p = []
  · rw [if_pos hr']
  · rw [if_neg hr']

/-- Code which ends its own run. -/
example : Start.custom (fun p (s : Unit) ts => (.ok, s, ((closeFirst p 5 ts).getD ts))) (fun _ => 3) "/a".toList () []
    = (.timeError, (), [("/a".toList, 3, some 5)]) :=
  C117_custom_closed _ _ _ _ _ .ok _ _ rfl (by decide)

theorem exStarts_ok : TreeOk exStarts where
  ok := by decide +kernel
  node := by
    intro q n h
    simp only [exStarts, List.mem_cons, List.not_mem_nil, or_false, Prod.mk.injEq] at h
    rcases h with ⟨rfl, rfl⟩ | ⟨rfl, rfl⟩ | ⟨rfl, rfl⟩ | ⟨rfl, rfl⟩
    · exact .inr ⟨[], "a".toList, by decide +kernel, by decide +kernel, by decide +kernel, rfl⟩
    · exact .inr ⟨["a".toList], "x".toList, by decide +kernel, by decide +kernel, by decide +kernel, rfl⟩
    · exact .inr ⟨["a".toList], "y".toList, by decide +kernel, by decide +kernel, by decide +kernel, rfl⟩
    · exact .inr ⟨[], "b".toList, by decide +kernel, by decide +kernel, by decide +kernel, rfl⟩
  order := by
    intro q n h
    simp only [exStarts, List.mem_cons, List.not_mem_nil, or_false, Prod.mk.injEq] at h
    rcases h with ⟨rfl, rfl⟩ | ⟨rfl, rfl⟩ | ⟨rfl, rfl⟩ | ⟨rfl, rfl⟩ <;> exact List.nodup_nil

/-- The hypotheses of `C117_root` are met: `/a` with a node which is switched off. -/
example (run : Str → Unit → Times → Outcome × Unit × Times) (hk : KeepsTimes run) :
    ∃ N, ∀ fuel, N ≤ fuel → ∃ e s' ts' tr, Start.execute exStarts (scan (fun a b => a = b) exStarts) (fun _ => .none) fuel
      (fun _ p => (get? p exStarts).map LNode.enabled) run (fun _ => 0) (.path "/a".toList) () [] = .ok (e, s', ts', tr) ∧
      (tr.map (fun y => y.1)).Nodup := by
  have hc : ¬ Cyclic exStarts "/a".toList := by
    intro h
    exact absurd (C37_cycle_violation exStarts _ h 9) (by decide +kernel)
  obtain ⟨N, h⟩ := C117_root exStarts (scan (fun a b => a = b) exStarts) exStarts_ok (C46_scan _ _ (by simp)) (fun _ => .none)
    (x := "a".toList) (by decide +kernel) (by decide +kernel) hc (fun (_ : Unit) p => (get? p exStarts).map LNode.enabled) run
    (fun _ => 0) hk (fun _ _ _ => rfl) () (fun _ => rfl) [] (fun _ h => nomatch h)
  refine ⟨N, fun fuel hf => ?_⟩
  obtain ⟨e, s', ts', tr, roots, block, left, h1, -, -, -, -, h2, -⟩ := h fuel hf
  exact ⟨e, s', ts', tr, h1, h2⟩

example : Live exStarts "/a/y".toList ∧ ¬ Live exStarts "/a/x".toList := by
  constructor
  · rintro a ha hw ⟨n, hn, h1, h2⟩
    have hm := mem_of_get? hn
    simp only [exStarts, List.mem_cons, List.not_mem_nil, or_false, Prod.mk.injEq] at hm
    rcases hm with ⟨rfl, rfl⟩ | ⟨rfl, rfl⟩ | ⟨rfl, rfl⟩ | ⟨rfl, rfl⟩
    · exact h1 rfl
    · rcases ha with ha | ⟨ns, rest, k1, k2, k3, k4⟩
      · exact absurd ha (by decide)
      · have e1 := render_inj (a := ["a".toList, "x".toList]) (by decide +kernel) (names_append.1 k1).1 k3
        have e2 := render_inj (a := ["a".toList, "y".toList]) (by decide +kernel) k1 k4
        rw [← e1] at e2
        have := congrArg List.length e2
        simp at this
        exact k2 this
    · exact h1 rfl
    · exact h1 rfl
  · intro h
    exact h _ (.inl rfl) (by decide) ⟨_, rfl, by simp, rfl⟩

end Nxt.Props
