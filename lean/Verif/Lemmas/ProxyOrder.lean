import Verif.Lemmas.ProxyLoop
/-!
# The child orders while proxies are made
-/
namespace Nxt.Proxies
open Dict Spec Path

variable {N : List Str → Option (Option Str)} {O : List Str → List Str}

theorem orderOf_setInst (S : St) (p v q : Str) : orderOf (setInst S p v) q = orderOf S q := by
  unfold setInst orderOf
  cases hg : get? p S.nodes with
  | none => rfl
  | some n =>
    simp only [get?_set]
    by_cases h : q = p
    · subst h; simp [hg]
    · simp [h]

theorem orderOf_setOrder (S : St) (p : Str) (o : List Str) (q : Str) :
    orderOf (setOrder S p o) q = if q = p ∧ p ∈ keys S.nodes then o else orderOf S q := by
  unfold setOrder orderOf
  cases hg : get? p S.nodes with
  | none => rw [if_neg]; rintro ⟨-, h⟩; exact (get?_eq_none.1 hg) h
  | some n =>
    have hk : p ∈ keys S.nodes := get?_isSome.1 (by rw [hg]; rfl)
    simp only [get?_set]
    by_cases h : q = p
    · simp [h, hk]
    · simp [h]

theorem orderOf_childFold (p : Str) (l : List Str) (acc : St × List (Str × Str)) (q : Str) :
    orderOf (l.foldl (childStep p) acc).1 q = orderOf acc.1 q := by
  induction l generalizing acc with
  | nil => rfl
  | cons c l ih =>
    rw [List.foldl_cons, ih]
    unfold childStep
    simp only
    split
    · split
      · rfl
      · exact orderOf_setInst _ _ _ _
    · rfl

theorem orderOf_dirty (S : St) (d : Dict Str (List Str)) (q : Str) : orderOf { S with dirty := d } q = orderOf S q := rfl

/-- Discovering merges the child order of the source into that of the instance. -/
theorem orderOf_discover (same : Str → Str → Bool) (kids : List Str → Str → List Str) (S : St) {p : Str} (hp : p ∈ keys S.nodes)
    (q : Str) : orderOf (discover same kids S p).1 q =
      match possible S p with
      | none => orderOf S q
      | some r => if q = p ∧ r ∈ keys S.nodes then Lists.listMerger (orderOf S p) (orderOf S r) else orderOf S q := by
  unfold discover
  cases hr : possible S p with
  | none => rfl
  | some r =>
    simp only
    rw [orderOf_childFold, keys_setInst]
    by_cases hk : r ∈ keys S.nodes
    · rw [if_pos hk]
      show orderOf (setOrder _ _ _) q = _
      rw [orderOf_setOrder]
      simp only [orderOf_dirty, orderOf_setInst]
      rw [show keys (setInst S p r).nodes = keys S.nodes from keys_setInst _ _ _]
      simp [hk, hp]
    · rw [if_neg hk, if_neg (fun h => hk h.2), orderOf_dirty, orderOf_setInst]

/-- Making a proxy adds its name to the child order of its parent. -/
theorem orderOf_addProxy {S : St} {p : List Str} {x : Str} (hn : Names (p ++ [x])) (hk : render (p ++ [x]) ∉ keys S.nodes)
    (hp : render p ∈ keys S.nodes) (hd : (orderOf S (render p)).Nodup) (c q : Str) :
    orderOf (addProxy S (render (p ++ [x])) c) q =
      if q = render p ∧ x ∉ orderOf S (render p) then orderOf S (render p) ++ [x] else orderOf S q := by
  have hne : render p ≠ render (p ++ [x]) := by rintro h; rw [h] at hp; exact hk hp
  have e : ∀ q, orderOf { S with nodes := set (render (p ++ [x])) ⟨some c, [], true⟩ S.nodes } q = orderOf S q := by
    intro q
    unfold orderOf
    simp only [get?_set]
    by_cases h : q = render (p ++ [x])
    · rw [if_pos h, h, get?_eq_none.2 hk]; rfl
    · rw [if_neg h]
  unfold addProxy
  simp only
  rw [parentPath_render_snoc hn, (Props.C09_parent_name_join p x hn).2.1, e (render p)]
  split
  · rename_i hx
    rw [e, if_neg (fun h => h.2 hx)]
  · rename_i hx
    rw [orderOf_setOrder, e, Props.C15_disjoint _ _ hd (by intro y hy; rw [List.mem_singleton.1 hy]; exact hx)]
    by_cases hq : q = render p
    · subst hq
      rw [if_pos ⟨rfl, mem_keys_set.2 (.inr hp)⟩, if_pos ⟨rfl, hx⟩]
    · rw [if_neg (fun h => hq h.1), if_neg (fun h => hq h.1)]

/-- What holds of the child orders while proxies are made. -/
structure Ords (N : List Str → Option (Option Str)) (O : List Str → List Str) (S : St) : Prop where
  nodup : ∀ q, (orderOf S q).Nodup
  grow : ∀ p, Names p → (O p).Sublist (orderOf S (render p))
  listed : ∀ p x, Names (p ++ [x]) → N (p ++ [x]) = none → render (p ++ [x]) ∈ keys S.nodes → x ∈ orderOf S (render p)
  sound : ∀ p x, Names p → x ∈ orderOf S (render p) → Listed N O p x

theorem ords_congr {S T : St} (h : Ords N O S) (h1 : keys T.nodes = keys S.nodes) (h2 : ∀ q, orderOf T q = orderOf S q) :
    Ords N O T where
  nodup := fun q => by rw [h2]; exact h.nodup q
  grow := fun p hp => by rw [h2]; exact h.grow p hp
  listed := fun p x hn hN hk => by rw [h2]; rw [h1] at hk; exact h.listed p x hn hN hk
  sound := fun p x hp hx => by rw [h2] at hx; exact h.sound p x hp hx

theorem ords_start {S : St} (h : ∀ q n, (q, n) ∈ S.nodes → n.order.Nodup) : Ords (nodesOf S) (ordersOf S) S where
  nodup := by
    intro q
    unfold orderOf
    cases hg : get? q S.nodes with
    | none => exact List.nodup_nil
    | some n => exact h q n (mem_of_get? hg)
  grow := fun p _ => List.Sublist.refl _
  listed := fun p x _ hN hk => absurd hk (nodesOf_none.1 hN)
  sound := fun p x _ hx => .own hx

theorem discover_ords (same : Str → Str → Bool) {kids : List Str → Str → List Str} (hk : GivesKids kids) {S : St}
    (h : Good N S) (ho : Ords N O S) {q : Str} (hq : q ∈ keys S.nodes) :
    Ords N O (discover same kids S q).1 ∧ ∀ p, (orderOf S p).Sublist (orderOf (discover same kids S q).1 p) := by
  obtain ⟨-, d2, -⟩ := discover_spec same hk h hq
  have e := orderOf_discover same kids S hq
  obtain ⟨p, rfl, hp⟩ := h.node q hq
  cases hr : possible S (render p) with
  | none =>
    rw [hr] at e
    exact ⟨ords_congr ho d2 e, fun p => by rw [e]; exact List.Sublist.refl _⟩
  | some r =>
    rw [hr] at e
    simp only at e
    by_cases hrk : r ∈ keys S.nodes
    · have mono : ∀ q, (orderOf S q).Sublist (orderOf (discover same kids S (render p)).1 q) := by
        intro q
        rw [e]
        split
        · rename_i hh
          rw [hh.1]
          exact Props.C15_base_order _ _ (ho.nodup _)
        · exact List.Sublist.refl _
      refine ⟨⟨fun q => ?_, fun p' hp' => (ho.grow p' hp').trans (mono _), fun p' x hn hN hkk => ?_, fun p' x hn hx => ?_⟩, mono⟩
      · rw [e]
        split
        · exact (Props.C15_union_nodup _ _ (ho.nodup _) (ho.nodup _)).1
        · exact ho.nodup q
      · rw [d2] at hkk
        exact (mono _).subset (ho.listed p' x hn hN hkk)
      · rw [e] at hx
        split at hx
        · rename_i hh
          have := render_inj hn hp.names hh.1
          subst this
          rcases ((Props.C15_union_nodup _ _ (ho.nodup _) (ho.nodup _)).2 x).1 hx with hx | hx
          · exact ho.sound p' x hn hx
          · obtain ⟨a, rfl, ha⟩ := h.node r hrk
            obtain ⟨-, -, h2, -, -, -, h5, -⟩ := h.possible hp.names hr
            have ha0 : a ≠ [] := by rintro rfl; exact h2 rfl
            exact .inst (h5 a (pointsTo_render ha0 ha.names)) (ho.sound a x ha.names hx)
        · exact ho.sound p' x hn hx
    · have e' : ∀ q, orderOf (discover same kids S (render p)).1 q = orderOf S q := by
        intro q
        rw [e, if_neg (fun hh => hrk hh.2)]
      exact ⟨ords_congr ho d2 e', fun p => by rw [e']; exact List.Sublist.refl _⟩

theorem discoverAll_ords (same : Str → Str → Bool) {kids : List Str → Str → List Str} (hk : GivesKids kids) {S : St}
    (h : Good N S) (ho : Ords N O S) :
    Ords N O (discoverAll same kids S).1 ∧
    ∀ q ∈ keys S.nodes, ∃ T, Good N T ∧ Ords N O T ∧ keys T.nodes = keys S.nodes ∧
      ∀ p, (orderOf (discover same kids T q).1 p).Sublist (orderOf (discoverAll same kids S).1 p) := by
  unfold discoverAll
  have key : ∀ (l : List Str) (acc : St × List (Str × Str)), (∀ q ∈ l, q ∈ keys S.nodes) → Good N acc.1 → Ords N O acc.1 →
      keys acc.1.nodes = keys S.nodes →
      let r := l.foldl (fun acc p => ((discover same kids acc.1 p).1, acc.2 ++ (discover same kids acc.1 p).2)) acc
      Ords N O r.1 ∧ (∀ p, (orderOf acc.1 p).Sublist (orderOf r.1 p)) ∧
      ∀ q ∈ l, ∃ T, Good N T ∧ Ords N O T ∧ keys T.nodes = keys S.nodes ∧
        ∀ p, (orderOf (discover same kids T q).1 p).Sublist (orderOf r.1 p) := by
    intro l
    induction l with
    | nil => intro acc _ _ h2 _; exact ⟨h2, fun p => List.Sublist.refl _, fun q hq => nomatch hq⟩
    | cons p l ih =>
      intro acc hl h1 h2 h3
      have hp : p ∈ keys acc.1.nodes := by rw [h3]; exact hl p List.mem_cons_self
      obtain ⟨d1, d2, d3⟩ := discover_spec same hk h1 hp
      obtain ⟨o1, o2⟩ := discover_ords same hk h1 h2 hp
      obtain ⟨r1, r2, r3⟩ := ih ((discover same kids acc.1 p).1, acc.2 ++ (discover same kids acc.1 p).2)
        (fun q hq => hl q (List.mem_cons_of_mem _ hq)) d1 o1 (d2.trans h3)
      refine ⟨r1, fun q => (o2 q).trans (r2 q), fun q hq => ?_⟩
      rcases List.mem_cons.1 hq with rfl | hq
      · exact ⟨acc.1, h1, h2, h3, r2⟩
      · exact r3 q hq
  obtain ⟨r1, -, r3⟩ := key (deepSort S) (S, []) (fun q hq => (mem_deepSort h.ok q).1 hq) h ho rfl
  exact ⟨r1, fun q hq => r3 q ((mem_deepSort h.ok q).2 hq)⟩

theorem ords_standIn {S : St} (h : Good N S) (ho : Ords N O S) {m b rest : List Str} {x : Str} (hn : Names (b ++ [x]))
    (hi : Made N (.inst m b)) (hm : Made N (.node (b ++ x :: rest))) : Ords N O (standIn S (render (b ++ [x]))) := by
  unfold standIn
  rw [parentPath_render_snoc hn, (Props.C09_parent_name_join b x hn).2.1]
  split
  · exact ho
  · rename_i hk
    have hN : N (b ++ [x]) = none := Classical.byContradiction (fun hN => hk (h.init _ hn hN))
    cases hg : get? (render b) S.nodes with
    | none => exact ho
    | some n =>
      simp only
      split
      · exact ho
      · rename_i hx
        have hx : x ∉ n.order := fun hc => hx (.inr hc)
        have hb : render b ∈ keys S.nodes := get?_isSome.1 (by rw [hg]; rfl)
        have eo : orderOf S (render b) = n.order := by unfold orderOf; rw [hg]; rfl
        have hd : n.order.Nodup := by rw [← eo]; exact ho.nodup _
        have e : ∀ q, orderOf (setOrder S (render b) (Lists.listMerger n.order [x])) q =
            if q = render b then n.order ++ [x] else orderOf S q := by
          intro q
          rw [orderOf_setOrder, Props.C15_disjoint _ _ hd (by intro y hy; rw [List.mem_singleton.1 hy]; exact hx)]
          by_cases hq : q = render b
          · rw [if_pos ⟨hq, hb⟩, if_pos hq]
          · rw [if_neg (fun hh => hq hh.1), if_neg hq]
        have mono : ∀ q, (orderOf S q).Sublist (orderOf (setOrder S (render b) (Lists.listMerger n.order [x])) q) := by
          intro q
          rw [e]
          split
          · rename_i hh; rw [hh, eo]; exact List.sublist_append_left _ _
          · exact List.Sublist.refl _
        refine ⟨fun q => ?_, fun p' hp' => (ho.grow p' hp').trans (mono _), fun p' y hn' hN' hkk => ?_, fun p' y hn' hy => ?_⟩
        · rw [e]
          split
          · rw [List.nodup_append]
            refine ⟨hd, by simp, fun u hu c hc => ?_⟩
            rw [List.mem_singleton.1 hc]
            rintro rfl
            exact hx hu
          · exact ho.nodup q
        · rw [keys_setOrder] at hkk
          exact (mono _).subset (ho.listed p' y hn' hN' hkk)
        · rw [e] at hy
          split at hy
          · rename_i hh
            have := render_inj hn' (names_append.1 hn).1 hh
            subst this
            rcases List.mem_append.1 hy with hy | hy
            · exact ho.sound p' y hn' (by rw [eo]; exact hy)
            · rw [List.mem_singleton.1 hy]
              exact .implied hi hm hN
          · exact ho.sound p' y hn' hy

theorem create_ords (same : Str → Str → Bool) {acc : St × List Str} (h : Good N acc.1) (ho : Ords N O acc.1) {K : List Str}
    {st : Str × Str} (ht : Todo N K st) (hK : ∀ q ∈ K, q ∈ keys acc.1.nodes) : Ords N O (create same acc st).1 := by
  obtain ⟨p, a, h0, h1, h2, h3, h4, h5, -, m, x, rfl, h7, b, rest, rfl, h8, h9⟩ := ht
  unfold create
  simp only
  have hkk := keys_standIn acc.1 st.1
  have ho : Ords N O (standIn acc.1 st.1) := by
    rw [h1]; exact ords_standIn h ho h4.inst_names.2.1 h8 h9
  generalize standIn acc.1 st.1 = S0 at ho hkk ⊢
  rw [← hkk] at hK
  by_cases hk : st.2 ∈ keys S0.nodes
  · rw [if_pos hk]
    exact ords_congr ho (keys_setInst _ _ _) (fun q => orderOf_setInst _ _ _ _)
  · rw [if_neg hk]
    have e := orderOf_addProxy h3.names (h2 ▸ hk) (hK _ h7) (ho.nodup _) st.1
    rw [← h2] at e
    have mk : ∀ q, q ∈ keys (addProxy S0 st.2 st.1).nodes ↔ q = st.2 ∨ q ∈ keys S0.nodes := mem_keys_addProxy _ _ _
    have mono : ∀ q, (orderOf S0 q).Sublist (orderOf (addProxy S0 st.2 st.1) q) := by
      intro q
      rw [e]
      split
      · rename_i hh; rw [hh.1]; exact List.sublist_append_left _ _
      · exact List.Sublist.refl _
    have g : Ords N O (addProxy S0 st.2 st.1) := by
      refine ⟨fun q => ?_, fun p' hp' => (ho.grow p' hp').trans (mono _), fun p' y hn hN hkk => ?_, fun p' y hn hy => ?_⟩
      · rw [e]
        split
        · rename_i hh
          rw [List.nodup_append]
          refine ⟨ho.nodup _, by simp, fun b hb c hc => ?_⟩
          rw [List.mem_singleton.1 hc]
          rintro rfl
          exact hh.2 hb
        · exact ho.nodup q
      · rcases (mk _).1 hkk with hh | hh
        · have := render_inj hn h3.names (hh.trans h2)
          obtain ⟨rfl, he⟩ := List.append_inj' this rfl
          cases he
          rw [e]
          split
          · simp
          · rename_i hh
            exact Classical.byContradiction (fun hc => hh ⟨rfl, hc⟩)
        · exact (mono _).subset (ho.listed p' y hn hN hh)
      · rw [e] at hy
        split at hy
        · rename_i hh
          have := render_inj hn (names_append.1 h3.names).1 hh.1
          subst this
          rcases List.mem_append.1 hy with hy | hy
          · exact ho.sound p' y hn hy
          · rw [List.mem_singleton.1 hy]
            exact .made h3 h5
        · exact ho.sound p' y hn hy
    exact ords_congr g rfl (fun q => rfl)

theorem createFold_ords (same : Str → Str → Bool) {K : List Str} (todo : List (Str × Str))
    (ht : ∀ st ∈ todo, Todo N K st) (acc : St × List Str) (h : Good N acc.1) (ho : Ords N O acc.1)
    (hK : ∀ q ∈ K, q ∈ keys acc.1.nodes) : Ords N O (todo.foldl (create same) acc).1 := by
  induction todo generalizing acc with
  | nil => exact ho
  | cons st todo ih =>
    rw [List.foldl_cons]
    have hst := ht st List.mem_cons_self
    obtain ⟨c1, c2, -⟩ := create_good same h hst
    exact ih (fun st hst => ht st (List.mem_cons_of_mem _ hst)) _ c1 (create_ords same h ho hst hK)
      (fun q hq => (c2 q).2 (.inr (hK q hq)))

theorem proxyLoop_ords (same : Str → Str → Bool) {kids : List Str → Str → List Str} (hk : GivesKids kids) :
    ∀ fuel acc T imp, Good N acc.1 → ImpOk N acc → Ords N O acc.1 → proxyLoop same kids fuel acc = some (T, imp) →
    Ords N O T ∧ ∀ q ∈ keys T.nodes, ∃ S, Good N S ∧ Ords N O S ∧ keys S.nodes = keys T.nodes ∧
      ∀ p, (orderOf (discover same kids S q).1 p).Sublist (orderOf T p) := by
  intro fuel
  induction fuel with
  | zero => intro acc T imp _ _ _ h; cases h
  | succ fuel ih =>
    intro acc T imp hg hi ho h
    rw [proxyLoop] at h
    obtain ⟨d1, d2, d3, d4⟩ := discoverAll_spec same hk hg
    obtain ⟨o1, o2⟩ := discoverAll_ords same hk hg ho
    have hi' : ImpOk N ((discoverAll same kids acc.1).1, acc.2) := by
      refine ⟨fun q hq => ?_, hi.new, fun U p a x rest => ?_⟩
      · rw [d2]; exact hi.there q hq
      · rw [d2]; exact hi.plain U p a x rest
    split at h
    · cases h
      refine ⟨o1, fun q hq => ?_⟩
      rw [d2] at hq ⊢
      exact o2 q hq
    · obtain ⟨c1, c2, -⟩ := createFold_spec same _ d3 ((discoverAll same kids acc.1).1, acc.2) d1 hi'
        (fun q hq => by rw [d2]; exact hq)
      exact ih _ _ _ c1 c2 (createFold_ords same _ d3 _ d1 o1 (fun q hq => by rw [d2]; exact hq)) h

end Nxt.Proxies
