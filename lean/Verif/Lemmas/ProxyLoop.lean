import Verif.Lemmas.Proxies
import Verif.Props.Inherit
/-!
# The loop which makes proxies, and the order of the nodes
-/
namespace Nxt.Proxies
open Dict Spec Path

/-! ### Relative order in a list -/

theorem sublist_pair {α : Type} {l : List α} {a b : α} (ha : a ∈ l) (hb : b ∈ l) (hab : a ≠ b) :
    [a, b].Sublist l ∨ [b, a].Sublist l := by
  induction l with
  | nil => cases ha
  | cons c l ih =>
    rcases List.mem_cons.1 ha with ea | ha'
    · rcases List.mem_cons.1 hb with eb | hb'
      · exact absurd (ea.trans eb.symm) hab
      · rw [← ea]; exact .inl ((List.singleton_sublist.2 hb').cons_cons _)
    · rcases List.mem_cons.1 hb with eb | hb'
      · rw [← eb]; exact .inr ((List.singleton_sublist.2 ha').cons_cons _)
      · exact (ih ha' hb').imp (·.cons _) (·.cons _)

theorem pair_move {l : List Str} {a b q : Str} (k : Nat) (h : [a, b].Sublist l) (ha : q ≠ a) (hb : q ≠ b) :
    [a, b].Sublist (Lists.insertAt (l.erase q) k q) := by
  refine List.Sublist.trans ?_ (Lists.sublist_insertAt _ _ _)
  have := h.erase q
  rwa [List.erase_of_not_mem (by simp [ha, hb])] at this

theorem insert_after {l : List Str} {r p : Str} (hr : r ∈ l) (hp : p ≠ r) {k : Nat} (hk : 1 ≤ k) :
    [r, p].Sublist (Lists.insertAt (l.erase p) (l.idxOf r + k) p) := by
  have hmem : r ∈ (l.erase p).take (l.idxOf r + k) := by
    obtain ⟨u, v, rfl, hu⟩ := List.eq_append_cons_of_mem hr
    have hidx : (u ++ r :: v).idxOf r = u.length := by
      rw [List.idxOf_append, if_neg hu, List.idxOf_cons_self, Nat.zero_add]
    rw [hidx]
    by_cases hpu : p ∈ u
    · rw [List.erase_append_left _ hpu, List.take_append]
      refine List.mem_append_right _ ?_
      have : (u.erase p).length = u.length - 1 := List.length_erase_of_mem hpu
      have hpos := List.length_pos_of_mem hpu
      obtain ⟨m, hm⟩ : ∃ m, u.length + k - (u.erase p).length = m + 1 := ⟨u.length + k - (u.erase p).length - 1, by omega⟩
      rw [hm, List.take_succ_cons]
      exact List.mem_cons_self
    · rw [List.erase_append_right _ hpu, List.erase_cons_tail (by simpa using Ne.symm hp), List.take_append]
      refine List.mem_append_right _ ?_
      obtain ⟨m, hm⟩ : ∃ m, u.length + k - u.length = m + 1 := ⟨k - 1, by omega⟩
      rw [hm, List.take_succ_cons]
      exact List.mem_cons_self
  unfold Lists.insertAt
  have h1 := List.singleton_sublist.2 hmem
  have h2 : [p].Sublist (p :: (l.erase p).drop (l.idxOf r + k)) := List.singleton_sublist.2 List.mem_cons_self
  exact h1.append h2

/-! ### The deep sort -/

/-- The source of a node which the deep sort puts it after. -/
def src? (S : St) (p : Str) : Option Str := (possible S p).filter (fun r => r ∈ keys S.nodes)

theorem src?_eq {S : St} {p r : Str} : src? S p = some r ↔ possible S p = some r ∧ r ∈ keys S.nodes := by
  unfold src?
  rw [Option.filter_eq_some_iff]
  simp

theorem deepStep_none {S : St} {acc : List Str × Dict Str Nat} {p : Str} (h : src? S p = none) :
    deepStep S acc p = acc := by
  unfold deepStep
  cases hp : possible S p with
  | none => rfl
  | some r =>
    simp only
    rw [if_neg]
    intro hr
    rw [src?_eq.2 ⟨hp, hr⟩] at h
    cases h

theorem deepStep_some {S : St} {acc : List Str × Dict Str Nat} {p r : Str} (h : src? S p = some r) :
    deepStep S acc p = (Lists.insertAt (acc.1.erase p) (acc.1.idxOf r + (get? r acc.2).getD 1) p,
      set r ((get? r acc.2).getD 1 + 1) acc.2) := by
  obtain ⟨h1, h2⟩ := src?_eq.1 h
  unfold deepStep
  rw [h1]
  simp only
  rw [if_pos h2]

theorem offsets_pos {S : St} {acc : List Str × Dict Str Nat} {p : Str}
    (h : ∀ r, 1 ≤ (get? r acc.2).getD 1) : ∀ r, 1 ≤ (get? r (deepStep S acc p).2).getD 1 := by
  cases hs : src? S p with
  | none => rw [deepStep_none hs]; exact h
  | some r =>
    rw [deepStep_some hs]
    intro r'
    simp only [get?_set]
    split
    · simp
    · exact h r'

/-- The list the deep sort works on, after some items. -/
theorem deepFold_spec (S : St) (l : List Str) (hl : l.Nodup) (K : ∀ r, r ∈ keys S.nodes → r ∈ l) :
    ∀ rest done acc, l = done ++ rest → acc.1.Perm l → (∀ r, 1 ≤ (get? r acc.2).getD 1) →
    (∀ p r, p ∈ done → src? S p = some r → p ≠ r → ([r, p].Sublist l ∨ src? S r = none) → [r, p].Sublist acc.1) →
    (rest.foldl (deepStep S) acc).1.Perm l ∧
    ∀ p r, p ∈ l → src? S p = some r → p ≠ r → ([r, p].Sublist l ∨ src? S r = none) →
      [r, p].Sublist (rest.foldl (deepStep S) acc).1 := by
  intro rest
  induction rest with
  | nil =>
    intro done acc he hp _ hd
    rw [List.append_nil] at he
    subst he
    exact ⟨hp, hd⟩
  | cons q rest ih =>
    intro done acc he hp ho hd
    rw [List.foldl_cons]
    have hq : q ∈ l := by rw [he]; simp
    refine ih (done ++ [q]) _ (by rw [he]; simp) ?_ (offsets_pos ho) ?_
    · cases hs : src? S q with
      | none => rw [deepStep_none hs]; exact hp
      | some r =>
        rw [deepStep_some hs]
        refine (Lists.insertAt_perm _ _ _).trans ?_
        exact (List.perm_cons_erase (hp.symm.mem_iff.1 hq)).symm.trans hp
    · intro p r hpm hps hne hor
      rcases List.mem_append.1 hpm with hpd | hpq
      · have hsub := hd p r hpd hps hne hor
        have hpq : q ≠ p := by
          rintro rfl
          rw [he] at hl
          exact (List.nodup_append.1 hl).2.2 q hpd q List.mem_cons_self rfl
        cases hs : src? S q with
        | none => rw [deepStep_none hs]; exact hsub
        | some r' =>
          rw [deepStep_some hs]
          refine pair_move _ hsub ?_ hpq
          rintro rfl
          rcases hor with hor | hor
          · -- `q` is before `p` in the list, and `p` was done before `q`
            have h2 : [p, q].Sublist l := by
              rw [he]
              exact (List.singleton_sublist.2 hpd).append (List.singleton_sublist.2 (List.mem_cons_self (l := rest)))
            obtain ⟨u, v, rfl, hu, hv⟩ : ∃ u v, l = u ++ v ∧ p ∈ u ∧ q ∈ v :=
              ⟨done, q :: rest, he, hpd, List.mem_cons_self⟩
            have hn := List.nodup_append.1 hl
            rcases List.sublist_append_iff.1 hor with ⟨a, b, hab, ha, hb⟩
            cases a with
            | nil =>
              simp only [List.nil_append] at hab
              rw [← hab] at hb
              exact hn.2.2 p hu p (hb.subset (by simp)) rfl
            | cons x a =>
              simp only [List.cons_append, List.cons.injEq] at hab
              have : q ∈ u := ha.subset (by rw [hab.1]; exact List.mem_cons_self)
              exact hn.2.2 q this q hv rfl
          · rw [hs] at hor; cases hor
      · rw [List.mem_singleton] at hpq
        subst hpq
        rw [deepStep_some hps]
        exact insert_after (hp.symm.mem_iff.1 (K r (src?_eq.1 hps).2)) hne (ho r)

theorem sorted_spec (S : St) : (sorted S).Perm (keys S.nodes) ∧
    (sorted S).Pairwise (fun a b => (trace S a).length ≤ (trace S b).length) :=
  ⟨(Props.C16_stable_sort _ _).1, (Props.C16_stable_sort _ _).2.1⟩

theorem deepSort_spec {S : St} (h : Ok S.nodes) : (deepSort S).Perm (keys S.nodes) ∧
    ∀ p r, src? S p = some r → p ≠ r → p ∈ keys S.nodes →
      ((trace S r).length < (trace S p).length ∨ src? S r = none) → [r, p].Sublist (deepSort S) := by
  obtain ⟨h1, h2⟩ := sorted_spec S
  obtain ⟨g1, g2⟩ := deepFold_spec S (sorted S) (h1.nodup_iff.2 h) (fun r hr => h1.mem_iff.2 hr) (sorted S) []
    (sorted S, []) rfl (List.Perm.refl _) (by simp [get?]) (fun p r hp => nomatch hp)
  refine ⟨g1.trans h1, fun p r hs hne hp hor => g2 p r (h1.mem_iff.2 hp) hs hne ?_⟩
  rcases hor with hor | hor
  · left
    rcases sublist_pair (h1.mem_iff.2 (src?_eq.1 hs).2) (h1.mem_iff.2 hp) (Ne.symm hne) with hh | hh
    · exact hh
    · have := h2.sublist hh
      simp only [List.pairwise_cons, List.mem_singleton, forall_eq] at this
      omega
  · exact .inr hor

theorem mem_deepSort {S : St} (h : Ok S.nodes) (q : Str) : q ∈ deepSort S ↔ q ∈ keys S.nodes :=
  (deepSort_spec h).1.mem_iff

/-! ### The loop -/

variable {N : List Str → Option (Option Str)}

theorem discoverAll_spec (same : Str → Str → Bool) {kids : List Str → Str → List Str} (hk : GivesKids kids) {S : St}
    (h : Good N S) :
    Good N (discoverAll same kids S).1 ∧ keys (discoverAll same kids S).1.nodes = keys S.nodes ∧
    (∀ st ∈ (discoverAll same kids S).2, Todo N (keys S.nodes) st) ∧
    ((discoverAll same kids S).2 = [] → ∀ q ∈ keys S.nodes, ∃ T, Good N T ∧ keys T.nodes = keys S.nodes ∧
      (discover same kids T q).2 = []) := by
  have key : ∀ (l : List Str) (acc : St × List (Str × Str)), (∀ q ∈ l, q ∈ keys S.nodes) → Good N acc.1 →
      keys acc.1.nodes = keys S.nodes → (∀ st ∈ acc.2, Todo N (keys S.nodes) st) →
      let r := l.foldl (fun acc p => ((discover same kids acc.1 p).1, acc.2 ++ (discover same kids acc.1 p).2)) acc
      Good N r.1 ∧ keys r.1.nodes = keys S.nodes ∧ (∀ st ∈ r.2, Todo N (keys S.nodes) st) ∧
      (r.2 = [] → acc.2 = [] ∧ ∀ q ∈ l, ∃ T, Good N T ∧ keys T.nodes = keys S.nodes ∧
        (discover same kids T q).2 = []) := by
    intro l
    induction l with
    | nil => intro acc _ h1 h2 h3; exact ⟨h1, h2, h3, fun he => ⟨he, fun q hq => nomatch hq⟩⟩
    | cons p l ih =>
      intro acc hl h1 h2 h3
      have hp : p ∈ keys acc.1.nodes := by rw [h2]; exact hl p List.mem_cons_self
      obtain ⟨d1, d2, d3⟩ := discover_spec same hk h1 hp
      obtain ⟨r1, r2, r3, r4⟩ := ih ((discover same kids acc.1 p).1, acc.2 ++ (discover same kids acc.1 p).2)
        (fun q hq => hl q (List.mem_cons_of_mem _ hq)) d1 (d2.trans h2) (by
          intro st hst
          rcases List.mem_append.1 hst with hst | hst
          · exact h3 st hst
          · rw [← h2]; exact d3 st hst)
      refine ⟨r1, r2, r3, fun he => ?_⟩
      obtain ⟨e1, e2⟩ := r4 he
      rw [List.append_eq_nil_iff] at e1
      refine ⟨e1.1, fun q hq => ?_⟩
      rcases List.mem_cons.1 hq with rfl | hq
      · exact ⟨acc.1, h1, h2, e1.2⟩
      · exact e2 q hq
  obtain ⟨r1, r2, r3, r4⟩ := key (deepSort S) (S, []) (fun q hq => (mem_deepSort h.ok q).1 hq) h rfl
    (fun st hst => nomatch hst)
  exact ⟨r1, r2, r3, fun he q hq => (r4 he).2 q ((mem_deepSort h.ok q).2 hq)⟩

/-- What is known of the proxies which are noted as implied. -/
structure ImpOk (N : List Str → Option (Option Str)) (acc : St × List Str) : Prop where
  there : ∀ q ∈ acc.2, q ∈ keys acc.1.nodes
  new : ∀ q ∈ acc.2, ∃ p, q = render p ∧ Names p ∧ N p = none
  plain : Uniq N → ∀ p a x rest, Made N (.inst p a) → Made N (.node p) → Made N (.node (a ++ x :: rest)) →
    NoInst N a → N (p ++ [x]) = none → render (p ++ [x]) ∈ keys acc.1.nodes →
    (render (p ++ [x]) ∈ acc.2 ↔ N (a ++ [x]) = none)

/-- A node below one which is no instance is there from the start. -/
theorem made_plain {a : List Str} {x : Str} (ha : NoInst N a) (h : Made N (.node (a ++ [x]))) :
    N (a ++ [x]) ≠ none := by
  generalize hp : a ++ [x] = p at h
  cases h with
  | node _ h => rw [h]; simp
  | copyNode h1 _ _ =>
    have := List.append_inj' hp rfl
    rw [← this.1] at h1
    exact absurd h1 (ha.2 _)

theorem isImplied_plain {S : St} (h : Good N S) {a : List Str} {x : Str} (hn : Names (a ++ [x])) (ha : NoInst N a) :
    isImplied S (render (a ++ [x])) = true ↔ N (a ++ [x]) = none := by
  unfold isImplied
  split
  · rename_i hk
    obtain ⟨p, h1, h2⟩ := h.node _ hk
    rw [← render_inj hn h2.names h1] at h2
    simp [made_plain ha h2]
  · rename_i hk
    have h0 : N (a ++ [x]) = none := Classical.byContradiction (fun hN => hk (h.init _ hn hN))
    rw [parentPath_render_snoc hn]
    simp only [h0, iff_true]
    split
    · rfl
    · rename_i i hi
      rcases h.origin a i (names_append.1 hn).1 hi with rfl | hh
      · rw [Bool.not_eq_true', List.any_eq_false]
        intro q hq hc
        simp only [decide_eq_true_eq] at hc
        obtain ⟨hc1, hc2⟩ := hc
        obtain ⟨p, hp, rfl⟩ := h.paths q hq
        have hx : x ≠ ['/'] := by
          have := (hn x (by simp)).2.1
          rintro rfl
          simp at this
        rcases eq_nil_or_snoc p with rfl | ⟨m, y, rfl⟩
        · rw [(Props.C09_parent_name_join a x hn).2.1] at hc2
          exact hx hc2.symm
        · rw [parentPath_render_snoc hp] at hc1
          have := head_render m
          rw [hc1] at this
          cases this
      · exact absurd ha hh

theorem createFold_spec (same : Str → Str → Bool) {K : List Str} (todo : List (Str × Str))
    (ht : ∀ st ∈ todo, Todo N K st) (acc : St × List Str) (h : Good N acc.1) (hi : ImpOk N acc)
    (hK : ∀ q ∈ K, q ∈ keys acc.1.nodes) :
    Good N (todo.foldl (create same) acc).1 ∧ ImpOk N (todo.foldl (create same) acc) ∧
    (∀ q, q ∈ keys (todo.foldl (create same) acc).1.nodes ↔ q ∈ keys acc.1.nodes ∨ ∃ st ∈ todo, q = st.2) := by
  induction todo generalizing acc with
  | nil => exact ⟨h, hi, fun q => by simp⟩
  | cons st todo ih =>
    rw [List.foldl_cons]
    have hst := ht st List.mem_cons_self
    obtain ⟨c1, c2, c3⟩ := create_good same h hst
    have hi' : ImpOk N (create same acc st) := by
      obtain ⟨t, s, t0, t1, t2, t3, t4, t5, t6⟩ := hst
      refine ⟨fun q hq => ?_, fun q hq => ?_, fun U p a x rest g1 g2 g3 g4 g5 g6 => ?_⟩
      · rcases c3 q hq with hq | rfl
        · exact (c2 q).2 (.inr (hi.there q hq))
        · exact (c2 _).2 (.inl rfl)
      · rcases c3 q hq with hq | rfl
        · exact hi.new q hq
        · exact ⟨t, t2, t3.names, t5⟩
      · have hm : Made N (.inst (p ++ [x]) (a ++ [x])) := Made.copyInst g1 g2 g3 (by rw [g5]; simp)
        have hnx := (Made.copyNode g1 g2 g3).names
        by_cases he : render (p ++ [x]) = st.2
        · have hpt := render_inj hnx t3.names (he.trans t2)
          subst hpt
          have := U.one _ _ _ hm t4
          subst this
          have hdec := isImplied_plain h hm.inst_names.2.1 g4
          have himp : (create same acc st).2 = if isImplied acc.1 st.1 then acc.2 ++ [st.2] else acc.2 := rfl
          rw [himp, t1]
          by_cases hN : N (a ++ [x]) = none
          · rw [if_pos (hdec.2 hN), he]
            simp [hN]
          · rw [if_neg (fun hh => hN (hdec.1 hh))]
            constructor
            · intro hin
              by_cases hkk : render (p ++ [x]) ∈ keys acc.1.nodes
              · exact (hi.plain U p a x rest g1 g2 g3 g4 g5 hkk).1 hin
              · exact absurd hin (fun hin => hkk (hi.there _ hin))
            · intro hh; exact absurd hh hN
        · have hkk : render (p ++ [x]) ∈ keys acc.1.nodes := ((c2 _).1 g6).resolve_left he
          rw [← hi.plain U p a x rest g1 g2 g3 g4 g5 hkk]
          have himp : (create same acc st).2 = if isImplied acc.1 st.1 then acc.2 ++ [st.2] else acc.2 := rfl
          rw [himp]
          split
          · rw [List.mem_append, List.mem_singleton]
            exact ⟨fun hh => hh.resolve_right he, .inl⟩
          · rfl
    obtain ⟨r1, r2, r3⟩ := ih (fun st hst => ht st (List.mem_cons_of_mem _ hst)) _ c1 hi'
      (fun q hq => (c2 q).2 (.inr (hK q hq)))
    refine ⟨r1, r2, fun q => ?_⟩
    rw [r3, c2]
    constructor
    · rintro ((rfl | hq) | ⟨s, hs, rfl⟩)
      · exact .inr ⟨st, List.mem_cons_self, rfl⟩
      · exact .inl hq
      · exact .inr ⟨s, List.mem_cons_of_mem _ hs, rfl⟩
    · rintro (hq | ⟨s, hs, rfl⟩)
      · exact .inl (.inr hq)
      · rcases List.mem_cons.1 hs with rfl | hs
        · exact .inl (.inl rfl)
        · exact .inr ⟨s, hs, rfl⟩

theorem nodesOf_none {S : St} {p : List Str} : nodesOf S p = none ↔ render p ∉ keys S.nodes := by
  unfold nodesOf
  rw [Option.map_eq_none_iff, get?_eq_none]

theorem impOk_start (S : St) : ImpOk (nodesOf S) (S, []) where
  there := fun _ h => nomatch h
  new := fun _ h => nomatch h
  plain := fun _ _ _ _ _ _ _ _ _ h1 h2 => absurd h2 (nodesOf_none.1 h1)

/-- What holds when the loop ends. -/
theorem proxyLoop_spec (same : Str → Str → Bool) {kids : List Str → Str → List Str} (hk : GivesKids kids) :
    ∀ fuel acc T imp, Good N acc.1 → ImpOk N acc → proxyLoop same kids fuel acc = some (T, imp) →
    Good N T ∧ ImpOk N (T, imp) ∧
    ∀ q ∈ keys T.nodes, ∃ S, Good N S ∧ keys S.nodes = keys T.nodes ∧ (discover same kids S q).2 = [] := by
  intro fuel
  induction fuel with
  | zero => intro acc T imp _ _ h; cases h
  | succ fuel ih =>
    intro acc T imp hg hi h
    rw [proxyLoop] at h
    obtain ⟨d1, d2, d3, d4⟩ := discoverAll_spec same hk hg
    have hi' : ImpOk N ((discoverAll same kids acc.1).1, acc.2) := by
      refine ⟨fun q hq => ?_, hi.new, fun U p a x rest => ?_⟩
      · rw [d2]; exact hi.there q hq
      · rw [d2]; exact hi.plain U p a x rest
    split at h
    · rename_i he
      cases h
      refine ⟨d1, hi', fun q hq => ?_⟩
      rw [d2] at hq ⊢
      exact d4 he q hq
    · obtain ⟨c1, c2, -⟩ := createFold_spec same _ d3 ((discoverAll same kids acc.1).1, acc.2) d1 hi'
        (fun q hq => by rw [d2]; exact hq)
      exact ih _ _ _ c1 c2 h

/-- The loop ends when only finitely many nodes follow from the start. -/
theorem proxyLoop_ends (same : Str → Str → Bool) {kids : List Str → Str → List Str} (hk : GivesKids kids)
    (l : List (List Str)) (hl : ∀ p, Made N (.node p) → p ∈ l) :
    ∀ fuel acc, Good N acc.1 → ImpOk N acc → l.length < fuel + (keys acc.1.nodes).length →
    ∃ r, proxyLoop same kids fuel acc = some r := by
  have bound : ∀ S, Good N S → (keys S.nodes).length ≤ l.length := by
    intro S hS
    have := Dirty.length_le_of_nodup (a := keys S.nodes) (b := l.map render) hS.ok (by
      intro q hq
      obtain ⟨p, rfl, hp⟩ := hS.node q hq
      exact List.mem_map.2 ⟨p, hl p hp, rfl⟩)
    simpa using this
  intro fuel
  induction fuel with
  | zero =>
    intro acc hg _ hf
    have := bound acc.1 hg
    omega
  | succ fuel ih =>
    intro acc hg hi hf
    rw [proxyLoop]
    obtain ⟨d1, d2, d3, -⟩ := discoverAll_spec same hk hg
    have hi' : ImpOk N ((discoverAll same kids acc.1).1, acc.2) := by
      refine ⟨fun q hq => ?_, hi.new, fun U p a x rest => ?_⟩
      · rw [d2]; exact hi.there q hq
      · rw [d2]; exact hi.plain U p a x rest
    split
    · exact ⟨_, rfl⟩
    · rename_i he
      obtain ⟨c1, c2, c3⟩ := createFold_spec same _ d3 ((discoverAll same kids acc.1).1, acc.2) d1 hi'
        (fun q hq => by rw [d2]; exact hq)
      refine ih _ c1 c2 ?_
      obtain ⟨st, todo, hst⟩ := List.exists_cons_of_ne_nil he
      have hmem : st ∈ (discoverAll same kids acc.1).2 := by rw [hst]; exact List.mem_cons_self
      obtain ⟨p, a, -, -, e2, -, -, -, hnew, -⟩ := d3 st hmem
      have hlt := Dirty.length_le_of_nodup (a := st.2 :: keys acc.1.nodes)
        (b := keys ((discoverAll same kids acc.1).2.foldl (create same) ((discoverAll same kids acc.1).1, acc.2)).1.nodes)
        (List.nodup_cons.2 ⟨by rw [e2]; exact hnew, hg.ok⟩) (by
          intro q hq
          rw [c3]
          rcases List.mem_cons.1 hq with rfl | hq
          · exact .inr ⟨st, hmem, rfl⟩
          · exact .inl (by rw [d2]; exact hq))
      simp only [List.length_cons] at hlt
      omega

/-- What depends on a node in the map takes from it. -/
theorem Good.feeds {S : St} (h : Good N S) {p : List Str} (hp : Names p) {q : Str} (hr : Reach S.dirty (render p) q) :
    ∃ s, q = render s ∧ Names s ∧ Feeds N p s := by
  induction hr with
  | one hd =>
    obtain ⟨s, rfl, hs⟩ := h.dirty p _ hp hd
    exact ⟨s, rfl, hs.inst_names.1, .one hs⟩
  | more _ hd ih =>
    obtain ⟨s, rfl, hs, hf⟩ := ih
    obtain ⟨t, rfl, ht⟩ := h.dirty s _ hs hd
    exact ⟨t, rfl, ht.inst_names.1, .more hf ht⟩

/-- Where there is something to copy, an instance is possible. -/
theorem Good.calm_possible {S : St} (h : Good N S) (C : Calm N) (hw : ∀ i, N [] = some (some i) → i = [])
    {p r rest : List Str} {x : Str} (hk : render p ∈ keys S.nodes) (h1 : Made N (.inst p r))
    (h2 : Made N (.node (r ++ x :: rest))) : Proxies.possible S (render p) = some (render r) := by
  obtain ⟨i, hi, hp⟩ := h.sure C.toUniq p r x rest hk h1 h2
  obtain ⟨n1, n2, n3⟩ := h1.inst_names
  have h0 : p ≠ [] := by rintro rfl; exact h1.ne_world hw r rfl
  have hine : i ≠ [] := by
    rintro rfl
    obtain ⟨-, -, he | ⟨he, -⟩⟩ := hp
    · have := head_render r
      rw [← he] at this
      cases this
    · exact he rfl
  have hiw : i ≠ WORLD := by
    rintro rfl
    obtain ⟨-, -, he | ⟨-, he, -⟩⟩ := hp
    · exact n3 ((render_eq_world n2).1 he.symm)
    · exact he rfl
  refine possible_of hi hine hiw ((pointsTo_iff n1 h0 hine).1 hp).2.2 ?_ ?_
  · rw [← Bool.not_eq_true, Py.startsWith_iff]
    rintro ⟨t, ht⟩
    rw [render_ne_nil h0, render_ne_nil n3, show slashed r ++ [SEP] ++ t = slashed r ++ '/' :: t by simp [SEP]] at ht
    obtain ⟨more, hm, he⟩ := (prefix_slashed_iff n2 n1).1 ⟨t, ht⟩
    exact C.above p r x rest h1 h2 more hm he
  · rw [mem_dirties h.nodup]
    intro hr
    obtain ⟨s, he, hs, hf⟩ := h.feeds n1 hr
    rw [← render_inj n2 hs he] at hf
    exact C.cycle p r x rest h1 h2 hf

/-- When the loop has ended, all nodes which follow from the start are there. -/
theorem closed_calm (same : Str → Str → Bool) {kids : List Str → Str → List Str} (hk : GivesKids kids) (C : Calm N)
    (hw : ∀ i, N [] = some (some i) → i = []) {T : St} (h : Good N T)
    (hT : ∀ q ∈ keys T.nodes, ∃ S, Good N S ∧ keys S.nodes = keys T.nodes ∧ (discover same kids S q).2 = [])
    {f : Fact} (hf : Made N f) : ∀ p, f = .node p → render p ∈ keys T.nodes := by
  induction hf with
  | @node p i h1 h2 => intro q he; cases he; exact h.init p h1 (by rw [h2]; simp)
  | inst => intro q he; cases he
  | copyInst => intro q he; cases he
  | @copyNode p r rest x h1 h2 h3 _ ih2 ih3 =>
    intro q he
    cases he
    obtain ⟨S, g1, g2, g3⟩ := hT _ (ih2 p rfl)
    have hp := ih2 p rfl
    have hr := ih3 _ rfl
    rw [← g2] at hp hr ⊢
    exact discover_closed same hk g1 h2.names hp h3.names (g1.calm_possible C hw hp h1 h3) g3 hr

/-- Taking out nodes. -/
theorem eraseFold (l : List Str) (S : St) (h : Ok S.nodes) :
    Ok (l.foldl (fun S p => { S with nodes := erase p S.nodes }) S).nodes ∧
    ∀ q, get? q (l.foldl (fun S p => { S with nodes := erase p S.nodes }) S).nodes =
      if q ∈ l then none else get? q S.nodes := by
  induction l generalizing S with
  | nil => exact ⟨h, fun q => by simp⟩
  | cons p l ih =>
    rw [List.foldl_cons]
    obtain ⟨h1, h2⟩ := ih { S with nodes := erase p S.nodes } (ok_erase h p)
    refine ⟨h1, fun q => ?_⟩
    rw [h2, get?_erase h]
    by_cases h3 : q = p
    · simp [h3]
    · by_cases h4 : q ∈ l <;> simp [h3, h4]

end Nxt.Proxies
