import Verif.Lemmas.BuildDone
import Verif.Props.ProxiesOrder
/-!
# The child orders of separate instances, when every node is listed
-/
namespace Nxt.Proxies
open Dict Spec Path

variable {N : List Str → Option (Option Str)} {O : List Str → List Str}

/-- Child orders which list just the nodes below a node, with nothing missing in between. -/
structure Full (N : List Str → Option (Option Str)) (O : List Str → List Str) : Prop where
  nodup : ∀ p, Names p → (O p).Nodup
  empty : ∀ p, Names p → N p = none → O p = []
  listed : ∀ p x, Names (p ++ [x]) → p ≠ [] → N (p ++ [x]) ≠ none → x ∈ O p
  stale : ∀ p x, Names p → p ≠ [] → x ∈ O p → Names [x] ∧ N (p ++ [x]) ≠ none
  closed : ∀ p x, Names (p ++ [x]) → p ≠ [] → N (p ++ [x]) ≠ none → N p ≠ none

/-- The child order of a node is what it was, or that merged with the one of its source. -/
def Mg (N : List Str → Option (Option Str)) (O : List Str → List Str) (S : St) : Prop :=
  ∀ p, Names p → orderOf S (render p) = O p ∨
    ∃ s, Made N (.inst p s) ∧ orderOf S (render p) = Lists.listMerger (O p) (O s)

theorem Full.above (F : Full N O) (p rest : List Str) (hn : Names (p ++ rest)) (h0 : p ≠ []) (h : N (p ++ rest) ≠ none) : N p ≠ none := by
  induction rest using Legacy.snocInduct with
  | nil => simpa using h
  | snoc l x ih =>
    rw [← List.append_assoc] at hn h
    exact ih (names_append.1 hn).1 (F.closed _ x hn (by simp [h0]) h)

/-- What is a source is no instance. -/
theorem sep_source (C : Separate N) {p r : List Str} (h : Made N (.inst p r)) : ∀ s, ¬ Made N (.inst r s) := by
  intro s hs
  obtain ⟨q, r0, t, -, rfl, rfl, hi⟩ := Props.sep_made C h
  obtain ⟨q', r', t', -, e, -, hi'⟩ := Props.sep_made C hs
  obtain ⟨h1, h2⟩ := C.apart q r0 q' r' hi hi'
  rcases Props.comparable e with h | h
  · exact h2 h
  · exact h1 h

theorem mg_source (C : Separate N) {S : St} (h : Mg N O S) {p r : List Str} (hm : Made N (.inst p r)) :
    orderOf S (render r) = O r := by
  rcases h r hm.inst_names.2.1 with h | ⟨s, hs, -⟩
  · exact h
  · exact absurd hs (sep_source C hm s)

theorem mg_congr {S T : St} (h : Mg N O S) (e : ∀ q, orderOf T q = orderOf S q) : Mg N O T := by
  intro p hp
  rw [e]
  exact h p hp

theorem mg_discover (same : Str → Str → Bool) {kids : List Str → Str → List Str} {S : St} (C : Separate N) (F : Full N O)
    (h : Good N S) (hm : Mg N O S) {q : Str} (hq : q ∈ keys S.nodes) : Mg N O (discover same kids S q).1 := by
  have e := orderOf_discover same kids S hq
  obtain ⟨p, rfl, hp⟩ := h.node q hq
  cases hr : possible S (render p) with
  | none => rw [hr] at e; exact mg_congr hm e
  | some r =>
    rw [hr] at e
    simp only at e
    intro p' hp'
    rw [e]
    split
    · rename_i hh
      have := render_inj hp' hp.names hh.1
      subst this
      obtain ⟨a, rfl, ha⟩ := h.node r hh.2
      obtain ⟨-, -, h2, -, -, -, h5, -⟩ := h.possible hp.names hr
      have ha0 : a ≠ [] := by rintro rfl; exact h2 rfl
      have hi := h5 a (pointsTo_render ha0 ha.names)
      rw [mg_source C hm hi]
      refine .inr ⟨a, hi, ?_⟩
      rcases hm p' hp' with hc | ⟨s, hs, hc⟩
      · rw [hc]
      · rw [hc, (Props.Separate.calm C).one _ _ _ hs hi]
        exact Props.C15_idempotent _ _ (F.nodup _ hp') (F.nodup _ ha.names)
    · exact hm p' hp'

theorem mg_discoverAll (same : Str → Str → Bool) {kids : List Str → Str → List Str} (hk : GivesKids kids) {S : St} (C : Separate N)
    (F : Full N O) (h : Good N S) (hm : Mg N O S) : Mg N O (discoverAll same kids S).1 := by
  unfold discoverAll
  have key : ∀ (l : List Str) (acc : St × List (Str × Str)), (∀ q ∈ l, q ∈ keys S.nodes) → Good N acc.1 → Mg N O acc.1 →
      keys acc.1.nodes = keys S.nodes →
      Mg N O (l.foldl (fun acc p => ((discover same kids acc.1 p).1, acc.2 ++ (discover same kids acc.1 p).2)) acc).1 := by
    intro l
    induction l with
    | nil => intro acc _ _ h2 _; exact h2
    | cons p l ih =>
      intro acc hl h1 h2 h3
      have hp : p ∈ keys acc.1.nodes := by rw [h3]; exact hl p List.mem_cons_self
      obtain ⟨d1, d2, -⟩ := discover_spec same hk h1 hp
      exact ih ((discover same kids acc.1 p).1, acc.2 ++ (discover same kids acc.1 p).2)
        (fun q hq => hl q (List.mem_cons_of_mem _ hq)) d1 (mg_discover same C F h1 h2 hp) (d2.trans h3)
  exact key (deepSort S) (S, []) (fun q hq => (mem_deepSort h.ok q).1 hq) h hm rfl

/-- The child orders of sources have come to their instances. -/
def Came (N : List Str → Option (Option Str)) (O : List Str → List Str) (K : List Str) (S : St) : Prop :=
  ∀ m b x rest, render m ∈ K → Made N (.inst m b) → Names (b ++ x :: rest) → N (b ++ x :: rest) ≠ none → ∀ y ∈ O b, y ∈ orderOf S (render m)

theorem came_discoverAll (same : Str → Str → Bool) {kids : List Str → Str → List Str} (hk : GivesKids kids) {S : St} (C : Separate N)
    (hw : ∀ i, N [] = some (some i) → i = []) (F : Full N O) (h : Good N S) (ho : Ords N O S) :
    Came N O (keys S.nodes) (discoverAll same kids S).1 := by
  intro m b x rest hmk hi hn hN y hy
  obtain ⟨T, s1, s2, s3, s4⟩ := (discoverAll_ords same hk h ho).2 _ hmk
  refine (s4 _).subset ?_
  rw [← s3] at hmk
  obtain ⟨i, hi'⟩ := Option.ne_none_iff_exists'.1 hN
  have hp := s1.calm_possible (Props.Separate.calm C) hw hmk hi (Made.node hn hi')
  have ed := orderOf_discover same kids T hmk (render m)
  rw [hp] at ed
  simp only [true_and] at ed
  obtain ⟨-, hb, hb0⟩ := hi.inst_names
  rw [if_pos (s1.init _ hb (F.above b _ hn hb0 hN))] at ed
  rw [ed]
  exact ((Props.C15_union_nodup _ _ (s2.nodup _) (s2.nodup _)).2 y).2 (.inr ((s2.grow _ hb).subset hy))

/-- What a proxy is to be made of is there, and listed. -/
theorem todo_source (C : Separate N) (F : Full N O) {S : St} (h : Good N S) {K : List Str} {st : Str × Str} (ht : Todo N K st) :
    st.1 ∈ keys S.nodes ∧ ∃ m b x rest, Names (m ++ [x]) ∧ st.2 = render (m ++ [x]) ∧ st.1 = render (b ++ [x]) ∧ render m ∈ K ∧
      Made N (.inst m b) ∧ Made N (.inst (m ++ [x]) (b ++ [x])) ∧ Names (b ++ x :: rest) ∧ N (b ++ x :: rest) ≠ none ∧ x ∈ O b := by
  obtain ⟨p, a, h0, h1, h2, h3, h4, h5, -, m, x, rfl, h7, b, rest, rfl, h8, h9⟩ := ht
  obtain ⟨-, hb, hb0⟩ := h8.inst_names
  obtain ⟨q0, r0, t0, -, -, e0, hi0⟩ := Props.sep_made C h8
  have hN : N (b ++ x :: rest) ≠ none := by
    have := Props.sep_made C h9
    rw [e0, List.append_assoc] at this ⊢
    exact Props.Separate.below C hi0 this
  have hxr : Names (b ++ x :: rest) := h9.names
  have e : b ++ x :: rest = (b ++ [x]) ++ rest := by simp
  have hN' : N (b ++ [x]) ≠ none := by
    rw [e] at hxr hN
    exact F.above _ rest hxr (by simp) hN
  refine ⟨?_, m, b, x, rest, h3.names, h2, h1, h7, h8, h4, hxr, hN, F.listed b x h4.inst_names.2.1 hb0 hN'⟩
  rw [h1]
  exact h.init _ h4.inst_names.2.1 hN'

/-- Then making proxies changes no child order. -/
theorem orderOf_create (same : Str → Str → Bool) {acc : St × List Str} (C : Separate N) (F : Full N O) (h : Good N acc.1)
    (ho : Ords N O acc.1) {K : List Str} {st : Str × Str} (ht : Todo N K st) (hK : ∀ q ∈ K, q ∈ keys acc.1.nodes)
    (hc : Came N O K acc.1) (q : Str) : orderOf (create same acc st).1 q = orderOf acc.1 q := by
  obtain ⟨hsrc, m, b, x, rest, h3, h2, h1, h7, h8, -, hxr, hN, hx⟩ := todo_source C F h ht
  have hst : standIn acc.1 st.1 = acc.1 := by unfold standIn; rw [if_pos hsrc]
  unfold create
  simp only [hst]
  by_cases hk : st.2 ∈ keys acc.1.nodes
  · rw [if_pos hk]
    show orderOf (setInst acc.1 st.2 st.1) q = _
    exact orderOf_setInst _ _ _ _
  · rw [if_neg hk]
    show orderOf (addProxy acc.1 st.2 st.1) q = _
    have := orderOf_addProxy h3 (h2 ▸ hk) (hK _ h7) (ho.nodup _) st.1 q
    rw [← h2] at this
    rw [this, if_neg (fun hh => hh.2 (hc m b x rest h7 h8 hxr hN x hx))]

theorem orderOf_createFold (same : Str → Str → Bool) (C : Separate N) (F : Full N O) {K : List Str} (todo : List (Str × Str))
    (ht : ∀ st ∈ todo, Todo N K st) (acc : St × List Str) (h : Good N acc.1) (ho : Ords N O acc.1)
    (hK : ∀ q ∈ K, q ∈ keys acc.1.nodes) (hc : Came N O K acc.1) (q : Str) :
    orderOf (todo.foldl (create same) acc).1 q = orderOf acc.1 q := by
  induction todo generalizing acc with
  | nil => rfl
  | cons st todo ih =>
    rw [List.foldl_cons]
    have hst := ht st List.mem_cons_self
    obtain ⟨c1, c2, -⟩ := create_good same h hst
    have e := orderOf_create same C F h ho hst hK hc
    rw [ih (fun st hst => ht st (List.mem_cons_of_mem _ hst)) _ c1 (create_ords same h ho hst hK)
      (fun q hq => (c2 q).2 (.inr (hK q hq))) (fun m b x rest h1 h2 h3 h4 y hy => by rw [e]; exact hc m b x rest h1 h2 h3 h4 y hy), e]

theorem mg_proxyLoop (same : Str → Str → Bool) {kids : List Str → Str → List Str} (hk : GivesKids kids) (C : Separate N)
    (hw : ∀ i, N [] = some (some i) → i = []) (F : Full N O) :
    ∀ fuel acc T imp, Good N acc.1 → ImpOk N acc → Ords N O acc.1 → Mg N O acc.1 → proxyLoop same kids fuel acc = some (T, imp) →
    Mg N O T ∧ Came N O (keys T.nodes) T := by
  intro fuel
  induction fuel with
  | zero => intro acc T imp _ _ _ _ h; cases h
  | succ fuel ih =>
    intro acc T imp hg hi ho hm h
    rw [proxyLoop] at h
    obtain ⟨d1, d2, d3, d4⟩ := discoverAll_spec same hk hg
    obtain ⟨o1, o2⟩ := discoverAll_ords same hk hg ho
    have m1 := mg_discoverAll same hk C F hg hm
    have k1 := came_discoverAll same hk C hw F hg ho
    have hi' : ImpOk N ((discoverAll same kids acc.1).1, acc.2) := by
      refine ⟨fun q hq => ?_, hi.new, fun U p a x rest => ?_⟩
      · rw [d2]; exact hi.there q hq
      · rw [d2]; exact hi.plain U p a x rest
    split at h
    · cases h
      rw [d2]
      exact ⟨m1, k1⟩
    · obtain ⟨c1, c2, -⟩ := createFold_spec same _ d3 ((discoverAll same kids acc.1).1, acc.2) d1 hi'
        (fun q hq => by rw [d2]; exact hq)
      have hK : ∀ q ∈ keys acc.1.nodes, q ∈ keys (discoverAll same kids acc.1).1.nodes := fun q hq => by rw [d2]; exact hq
      exact ih _ _ _ c1 c2 (createFold_ords same _ d3 _ d1 o1 hK)
        (mg_congr m1 (orderOf_createFold same C F _ d3 _ d1 o1 hK k1)) h

/-- The child orders in the end: that of a node with a source is merged with the one of the source. -/
theorem compProxies_merged {same : Str → Str → Bool} {kids : List Str → Str → List Str} (hk : GivesKids kids) {fuel : Nat}
    {S R : St} (hs : Start S) (C : Separate (nodesOf S)) (F : Full (nodesOf S) (ordersOf S)) (h : compProxies same kids fuel S = some R)
    {p : List Str} (hp : Names p) (hR : nodesOf R p ≠ none) :
    (∀ s, Build.Copies (nodesOf S) p s → ordersOf R p = Lists.listMerger (ordersOf S p) (ordersOf S s)) ∧
    ((¬ ∃ s, Build.Copies (nodesOf S) p s) → ordersOf R p = ordersOf S p) := by
  have hd : ∀ q n, (q, n) ∈ S.nodes → n.order.Nodup := by
    intro q n hm
    obtain ⟨a, ha, rfl⟩ := hs.path q (mem_keys_of_mem hm)
    have := F.nodup a ha
    unfold ordersOf at this
    rw [get?_of_mem hs.ok hm] at this
    exact this
  obtain ⟨T, -, -, -, g⟩ := Props.compProxies_ords hk hs hd h
  unfold compProxies at h
  rw [Option.map_eq_some_iff] at h
  obtain ⟨⟨T, imp⟩, h1, rfl⟩ := h
  obtain ⟨g1, -, -⟩ := proxyLoop_spec same hk fuel (S, []) T imp (good_start hs) (impOk_start S) h1
  obtain ⟨m1, m2⟩ := mg_proxyLoop (N := nodesOf S) (O := ordersOf S) same hk C hs.world F fuel (S, []) T imp (good_start hs) (impOk_start S)
    (ords_start hd) (fun p _ => .inl rfl) h1
  have e := (eraseFold imp T g1.ok).2 (render p)
  have hRT : render p ∈ keys T.nodes ∧ ordersOf (imp.foldl (fun S p => { S with nodes := erase p S.nodes }) T) p = orderOf T (render p) := by
    unfold nodesOf at hR
    unfold ordersOf orderOf
    simp only at hR ⊢
    rw [e] at hR ⊢
    split at hR
    · exact absurd rfl hR
    · rename_i hi
      rw [if_neg hi]
      refine ⟨Classical.byContradiction (fun hn => hR ?_), rfl⟩
      rw [get?_eq_none.2 hn]; rfl
  simp only
  rw [hRT.2]
  have made : ∀ s, Build.Copies (nodesOf S) p s → Made (nodesOf S) (.inst p s) := by
    rintro s ⟨q, r, t, rfl, rfl, hi, ht, hN⟩
    refine (Props.sep_copies C hi t [] ?_ (by simpa using hN)).2
    rw [List.append_nil]
    obtain ⟨-, -, -, -, hr, -⟩ := hi
    exact names_append.2 ⟨hr, ht⟩
  refine ⟨fun s hs' => ?_, fun hno => ?_⟩
  · have hms := made s hs'
    rcases m1 p hp with hc | ⟨s', hm', hc⟩
    · rw [hc]
      refine (Props.C15_contained _ _ (fun y hy => ?_)).symm
      obtain ⟨-, hsn, hs0⟩ := hms.inst_names
      obtain ⟨hy1, hy2⟩ := F.stale s y hsn hs0 hy
      have := m2 p s y [] hRT.1 hms (names_append.2 ⟨hsn, hy1⟩) hy2 y hy
      rwa [hc] at this
    · rw [hc, (Props.Separate.calm C).one _ _ _ hm' hms]
  · rcases m1 p hp with hc | ⟨s', hm', hc⟩
    · exact hc
    · obtain ⟨q, r, t, ht, rfl, rfl, hi⟩ := Props.sep_made C hm'
      rw [hc, F.empty (r ++ t) hm'.inst_names.2.1 (Classical.byContradiction (fun hN => hno ⟨_, q, r, t, rfl, rfl, hi, ht, hN⟩))]
      exact Props.C15_contained _ _ (fun x hx => nomatch hx)

end Nxt.Proxies
