import Verif.Model.LayerData
import Verif.Lemmas.NodeSave
import Verif.Props.NodeData
import Verif.Props.Path
import Verif.Props.Lists
/-!
# Lemmas about loading and saving layers
-/
namespace Nxt.LayerData
open Dict Layer NodeData Spec Props Path

theorem strLe_prefix {a b : Str} (h : a <+: b) : strLe a b = true := by
  induction a generalizing b with
  | nil => simp [strLe]
  | cons c cs ih =>
    obtain ⟨t, rfl⟩ := h
    rw [List.cons_append, strLe]
    simp
    exact ih ⟨t, rfl⟩

/-- Facts about a well formed path. -/
theorem path_facts {p : Str} (h : ∃ ns, Names ns ∧ p = render ns) :
    Path.joinNodePath (Path.parentPath p) (Path.nodeName p) = p ∧
    Path.parentPath p <+: p ∧ Path.parentPath p ≠ p := by
  obtain ⟨ns, hn, rfl⟩ := h
  rcases eq_nil_or_snoc ns with rfl | ⟨m, l, rfl⟩
  · exact ⟨by decide +kernel, by decide +kernel, by decide +kernel⟩
  · obtain ⟨h1, h2, h3, h4⟩ := C09_parent_name_join m l hn
    refine ⟨h4, ?_, ?_⟩
    · rw [h1]
      by_cases hm : m = []
      · subst hm
        exact ⟨l, by simp [render, slashed]⟩
      · rw [render_ne_nil hm, render_ne_nil (by simp), slashed_append]
        exact List.prefix_append _ _
    · rw [h1]
      intro he
      have := render_inj (names_append.1 hn).1 hn he
      have := congrArg List.length this
      simp at this

theorem createSpecNode_childOrder {data : Dict Str Val} {layer : Option Str} {parent : Str} {n : Dict Str Val}
    (h : createSpecNode data layer parent false = some n) :
    ∃ o : List Str, o.Nodup ∧ get? A_CHILD_ORDER n = some (.list (o.map Val.str)) := by
  unfold createSpecNode at h
  simp only [Option.bind_eq_bind, Option.bind_eq_some_iff] at h
  obtain ⟨name, h1, user, h2, attrs, h3, order, h4, h5⟩ := h
  have h6 := (Option.some.inj h5).symm
  clear h5
  refine ⟨dedup order [], (dedup_spec order [] List.nodup_nil).1, ?_⟩
  have hf := fun d => get?_foldl_set (fun _ : Str => Val.src layer (Path.joinNodePath parent name))
    (TRACKED.map (· ++ M_SOURCE)) d A_CHILD_ORDER
  simp only [List.foldl_map] at hf
  rw [h6, hf, if_neg (by decide +kernel), get?_set, if_neg (by decide +kernel), get?_set, if_neg (by decide +kernel),
    get?_set, if_pos rfl]

/-- What has been loaded after the paths `P`. -/
structure Inv (mk : Str → Dict Str Val) (ord : Str → List Str) (P : List Str) (T : Dict Str (Dict Str Val)) : Prop where
  keys : keys T = P
  node : ∀ p ∈ P, ∃ n, get? p T = some n ∧
    (Dict.keys n = Dict.keys (mk p) ∧ ∀ a, a ≠ A_CHILD_ORDER → get? a n = get? a (mk p)) ∧
    get? A_CHILD_ORDER n = some (.list ((ord p ++ missing P (ord p) p).map Val.str)) ∧ (missing P (ord p) p = [] → n = mk p)

theorem nodup_missing {P o : List Str} (p : Str) (hP : P.Nodup) (hv : ∀ q ∈ P, ∃ ns, Names ns ∧ q = render ns)
    (ho : o.Nodup) : (o ++ missing P o p).Nodup := by
  rw [List.nodup_append]
  refine ⟨ho, ?_, ?_⟩
  · unfold missing
    apply nodup_filter
    unfold List.Nodup
    rw [List.pairwise_map]
    refine List.Pairwise.imp_of_mem ?_ (nodup_filter _ hP)
    intro a b ha hb hab he
    rw [List.mem_filter] at ha hb
    apply hab
    rw [← (path_facts (hv a ha.1)).1, ← (path_facts (hv b hb.1)).1, he]
    have e1 := ha.2; have e2 := hb.2
    simp only [decide_eq_true_eq] at e1 e2
    rw [e1, e2]
  · rintro a ha b hb rfl
    unfold missing at hb
    rw [List.mem_filter] at hb
    simp only [decide_eq_true_eq] at hb
    exact hb.2 ha

theorem loadNodes_spec (layer : Option Str) (mk : Str → Dict Str Val) (ord : Str → List Str)
    (rest : List (Str × Val)) (P : List Str) (T : Dict Str (Dict Str Val))
    (hs : (P ++ keys rest).Pairwise (fun a b => strLe a b = true)) (hn : (P ++ keys rest).Nodup)
    (hv : ∀ q ∈ P ++ keys rest, ∃ ns, Names ns ∧ q = render ns)
    (hmk : ∀ p v, (p, v) ∈ rest → ∃ d, v = .dict d ∧ constructNode layer p d = some (mk p) ∧
      get? A_CHILD_ORDER (mk p) = some (.list ((ord p).map Val.str)) ∧ (ord p).Nodup)
    (hord : ∀ p ∈ P, (ord p).Nodup)
    (inv : Inv mk ord P T) :
    ∃ T', loadNodes layer rest T = some T' ∧ Inv mk ord (P ++ keys rest) T' := by
  induction rest generalizing P T with
  | nil => exact ⟨T, rfl, by simpa using inv⟩
  | cons e rest ih =>
    obtain ⟨q, v⟩ := e
    obtain ⟨d, rfl, hc, hco, hod⟩ := hmk q v (by simp)
    have hq := path_facts (hv q (by simp))
    rw [loadNodes, hc]
    simp only [hq.1]
    have hsplit : P ++ keys ((q, Val.dict d) :: rest) = (P ++ [q]) ++ keys rest := by simp
    rw [hsplit] at hs hn hv ⊢
    have hqP : q ∉ P := by
      intro hm
      have := (List.nodup_append.1 (List.nodup_append.1 hn).1).2.2 q hm q (by simp)
      exact this rfl
    have hPn : P.Nodup := (List.nodup_append.1 (List.nodup_append.1 hn).1).1
    have hvP : ∀ x ∈ P, ∃ ns, Names ns ∧ x = render ns := fun x hx => hv x (by simp [hx])
    -- no child of q is loaded yet
    have noChild : ∀ c ∈ P, Path.parentPath c ≠ q := by
      intro c hcP he
      have h1 := path_facts (hvP c hcP)
      have h2 : strLe c q = true := by
        have := (List.pairwise_append.1 (List.pairwise_append.1 hs).1).2.2 c hcP q (by simp)
        exact this
      have h3 : strLe q c = true := strLe_prefix (he ▸ h1.2.1)
      exact hqP (strLe_antisymm _ _ h2 h3 ▸ hcP)
    apply ih (P ++ [q]) _ hs hn hv (fun p v h => hmk p v (by simp [h]))
    · intro p hp
      rw [List.mem_append, List.mem_singleton] at hp
      rcases hp with hp | rfl
      · exact hord p hp
      · exact hod
    -- the new invariant
    have missing_snoc : ∀ p, p ≠ Path.parentPath q → missing (P ++ [q]) (ord p) p = missing P (ord p) p := by
      intro p hp
      unfold missing
      rw [List.filter_append]
      simp [Ne.symm hp]
    have missing_parent : missing (P ++ [q]) (ord (Path.parentPath q)) (Path.parentPath q)
        = missing P (ord (Path.parentPath q)) (Path.parentPath q)
          ++ (if Path.nodeName q ∈ ord (Path.parentPath q) then [] else [Path.nodeName q]) := by
      unfold missing
      rw [List.filter_append, List.map_append, List.filter_append]
      congr 1
      by_cases h : Path.nodeName q ∈ ord (Path.parentPath q) <;> simp [h]
    have nodeQ : missing (P ++ [q]) (ord q) q = [] := by
      unfold missing
      rw [List.filter_append]
      have e1 : P.filter (fun c => Path.parentPath c = q) = [] := by
        rw [List.filter_eq_nil_iff]; intro c hc; simpa using noChild c hc
      have e2 : [q].filter (fun c => Path.parentPath c = q) = [] := by simp [hq.2.2]
      rw [e1, e2]; rfl
    -- the table after linking
    have link : ∃ T1, linkParent T (Path.parentPath q) (Path.nodeName q) = T1 ∧ keys T1 = P ∧
        ∀ p ∈ P, ∃ n, get? p T1 = some n ∧
          (keys n = keys (mk p) ∧ ∀ a, a ≠ A_CHILD_ORDER → get? a n = get? a (mk p)) ∧
          get? A_CHILD_ORDER n = some (.list ((ord p ++ missing (P ++ [q]) (ord p) p).map Val.str)) ∧
          (missing (P ++ [q]) (ord p) p = [] → n = mk p) := by
      refine ⟨_, rfl, ?_⟩
      by_cases hp : Path.parentPath q ∈ P
      · obtain ⟨n, g1, g2, g3, _⟩ := inv.node _ hp
        have hnm : Path.nodeName q ∉ missing P (ord (Path.parentPath q)) (Path.parentPath q) := by
          unfold missing
          rw [List.mem_filter, List.mem_map]
          rintro ⟨⟨c, hc1, hc2⟩, _⟩
          rw [List.mem_filter] at hc1
          have e := hc1.2
          simp only [decide_eq_true_eq] at e
          have : c = q := by
            rw [← (path_facts (hvP c hc1.1)).1, ← hq.1, e, hc2]
          exact hqP (this ▸ hc1.1)
        unfold linkParent
        rw [g1]
        simp only [getAttr_of_get? g3, names_map]
        by_cases hin : Path.nodeName q ∈ ord (Path.parentPath q)
        · rw [if_pos (List.mem_append_left _ hin)]
          refine ⟨inv.keys, fun p hpP => ?_⟩
          obtain ⟨n', e1, e2, e3, e4⟩ := inv.node p hpP
          refine ⟨n', e1, e2, ?_⟩
          by_cases hpp : p = Path.parentPath q
          · subst hpp; rw [missing_parent, if_pos hin, List.append_nil]; exact ⟨e3, e4⟩
          · rw [missing_snoc p hpp]; exact ⟨e3, e4⟩
        · have hno : Path.nodeName q ∉ ord (Path.parentPath q)
              ++ missing P (ord (Path.parentPath q)) (Path.parentPath q) := by
            rw [List.mem_append]; rintro (h | h)
            · exact hin h
            · exact hnm h
          rw [if_neg hno]
          rw [C15_disjoint _ _ (nodup_missing _ hPn hvP (hord _ hp)) (by
            intro x hx; rw [List.mem_singleton] at hx; subst hx; exact hno)]
          constructor
          · rw [keys_set, if_pos (inv.keys ▸ hp), inv.keys]
          · intro p hpP
            by_cases hpp : p = Path.parentPath q
            · subst hpp
              refine ⟨_, by rw [get?_set, if_pos rfl], ?_, ?_, ?_⟩
              · refine ⟨?_, fun a ha => by rw [get?_set, if_neg ha]; exact g2.2 a ha⟩
                rw [keys_set, if_pos (get?_isSome.1 (by rw [g3]; rfl)), g2.1]
              · rw [get?_set, if_pos rfl, missing_parent, if_neg hin, List.append_assoc]
              · rw [missing_parent, if_neg hin]; intro h; simp at h
            · obtain ⟨n', e1, e2, e3, e4⟩ := inv.node p hpP
              exact ⟨n', by rw [get?_set, if_neg hpp]; exact e1, e2, by rw [missing_snoc p hpp]; exact ⟨e3, e4⟩⟩
      · have hnone : get? (Path.parentPath q) T = none := get?_eq_none.2 (by rw [inv.keys]; exact hp)
        unfold linkParent
        rw [hnone]
        refine ⟨inv.keys, fun p hpP => ?_⟩
        obtain ⟨n', e1, e2, e3, e4⟩ := inv.node p hpP
        refine ⟨n', e1, e2, ?_⟩
        rw [missing_snoc p (fun h => hp (h ▸ hpP))]; exact ⟨e3, e4⟩
    obtain ⟨T1, hT1, k1, l1⟩ := link
    rw [hT1]
    constructor
    · rw [keys_set, if_neg (by rw [k1]; exact hqP), k1]
    · intro p hp
      by_cases hpq : p = q
      · subst hpq
        refine ⟨mk p, by rw [get?_set, if_pos rfl], ⟨rfl, fun _ _ => rfl⟩, ?_, fun _ => rfl⟩
        rw [nodeQ, List.append_nil]; exact hco
      · rw [List.mem_append, List.mem_singleton] at hp
        obtain ⟨n', e1, e2, e3⟩ := l1 p (hp.resolve_right hpq)
        exact ⟨n', by rw [get?_set, if_neg hpq]; exact e1, e2, e3⟩

/-! ### Ordering of nodes -/

theorem orderNodesDict_congr {V : Type} {d e : Dict Str V} (hd : Ok d) (h : d.Perm e) :
    orderNodesDict d = orderNodesDict e := by
  have he : Ok e := ok_perm hd h
  obtain ⟨p1, s1⟩ := C24_order_nodes_dict d hd
  obtain ⟨p2, s2⟩ := C24_order_nodes_dict e he
  have hp : (orderNodesDict d).Perm (orderNodesDict e) := p1.trans (h.trans p2.symm)
  unfold keys at s1 s2
  rw [List.pairwise_map] at s1 s2
  refine hp.eq_of_pairwise (le := fun a b => strLe a.1 b.1 = true) ?_ s1 s2
  rintro ⟨a, v⟩ ⟨b, w⟩ ha hb h1 h2
  have e1 : a = b := strLe_antisymm _ _ h1 h2
  subst e1
  have ha' : (a, v) ∈ d := p1.mem_iff.1 ha
  have hb' : (a, w) ∈ d := h.mem_iff.2 (p2.mem_iff.1 hb)
  have := get?_of_mem hd ha'
  rw [get?_of_mem hd hb'] at this
  cases this; rfl

theorem keys_orderNodesDict {V : Type} (d : Dict Str V) (hd : Ok d) :
    keys (orderNodesDict d) = (keys d).mergeSort strLe := by
  have hp := List.mergeSort_perm (keys d) strLe
  obtain ⟨h1, h2, h3⟩ := leftoverLoop_spec d ((keys d).mergeSort strLe) []
    (fun k hk => hp.mem_iff.1 hk) (hp.nodup_iff.2 hd) ok_nil (by intro k hk; simp at hk)
  unfold orderNodesDict; rw [h3]; simp

/-- The node data before ordering. -/
theorem nodesSaveData_eq (b : List Str) (T : Dict Str (Dict Str Val)) (hT : Ok T) :
    nodesSaveData b T = orderNodesDict (T.map (fun pn => (pn.1, Val.dict (saveNode b pn.2)))) := by
  unfold nodesSaveData
  congr 1
  have : ∀ (T : Dict Str (Dict Str Val)) (acc : Dict Str Val), Ok T → (∀ k ∈ keys T, k ∉ keys acc) →
      T.foldl (fun d pn => set pn.1 (.dict (saveNode b pn.2)) d) acc
        = acc ++ T.map (fun pn => (pn.1, Val.dict (saveNode b pn.2))) := by
    intro T
    induction T with
    | nil => intros; simp
    | cons e T ih =>
      obtain ⟨p, n⟩ := e
      intro acc hT hd
      have hT' := List.nodup_cons.1 (show (p :: keys T).Nodup from hT)
      rw [List.foldl_cons]
      simp only
      rw [set_of_not_mem (hd p (by simp)), ih _ hT'.2]
      · simp
      · intro k hk hm
        rw [keys_append, List.mem_append] at hm
        rcases hm with hm | hm
        · exact hd k (by simp [hk]) hm
        · simp [keys] at hm; subst hm; exact hT'.1 hk
  rw [this T [] hT (by simp), List.nil_append]

/-! ### Meta data -/

theorem metaFold_spec (m : Meta) (ks : List Str) (res : Dict Str Val)
    (ht : ∀ k ∈ ks, (m.table k).isSome) (hn : ks.Nodup) :
    ∃ r, ks.foldlM (metaStep m) res = some r ∧
      (Ok res → Ok r) ∧
      (∀ k ∈ ks, ∀ t, m.table k = some t →
        get? k r = if t.isEmpty then get? k res else some (.dict (sortByKey t))) ∧
      (∀ x, x ∉ ks → get? x r = get? x res) := by
  induction ks generalizing res with
  | nil => exact ⟨res, rfl, id, by simp, fun _ _ => rfl⟩
  | cons k ks ih =>
    obtain ⟨t, htk⟩ := Option.isSome_iff_exists.1 (ht k (by simp))
    have hn' := List.nodup_cons.1 hn
    have hemp : (sortByKey t).isEmpty = t.isEmpty := by
      have := (sortByKey_perm t).length_eq
      cases h1 : sortByKey t <;> cases h2 : t <;> simp_all
    obtain ⟨r, h1, h2, h3, h4⟩ := ih (if (sortByKey t).isEmpty then res else set k (.dict (sortByKey t)) res)
      (fun k' hk' => ht k' (by simp [hk'])) hn'.2
    refine ⟨r, ?_, ?_, ?_, ?_⟩
    · rw [List.foldlM_cons]
      unfold metaStep at h1 ⊢
      rw [htk]
      exact h1
    · intro hok; apply h2; split
      · exact hok
      · exact ok_set hok _ _
    · intro k' hk' t' ht'
      rcases List.mem_cons.1 hk' with rfl | hk2
      · rw [htk] at ht'; cases ht'
        rw [h4 _ hn'.1, hemp]
        split
        · rfl
        · rw [get?_set, if_pos rfl]
      · rw [h3 k' hk2 t' ht']
        have hne : k' ≠ k := by rintro rfl; exact hn'.1 hk2
        have e : get? k' (if (sortByKey t).isEmpty then res else set k (.dict (sortByKey t)) res) = get? k' res := by
          split
          · rfl
          · rw [get?_set, if_neg hne]
        rw [e]
    · intro x hx
      rw [List.mem_cons, not_or] at hx
      rw [h4 x hx.2]
      split
      · rfl
      · rw [get?_set, if_neg hx.1]

theorem metaFold_fixed (m : Meta) (ks : List Str) (res : Dict Str Val)
    (ht : ∀ k ∈ ks, ∃ t, m.table k = some t ∧
      (t.isEmpty ∨ (sortByKey t = t ∧ get? k res = some (.dict t)))) :
    ks.foldlM (metaStep m) res = some res := by
  induction ks with
  | nil => rfl
  | cons k ks ih =>
    obtain ⟨t, h1, h2⟩ := ht k (by simp)
    rw [List.foldlM_cons]
    have : metaStep m res k = some res := by
      unfold metaStep
      rw [h1]
      simp only
      rcases h2 with h2 | ⟨h2, h3⟩
      · rw [List.isEmpty_iff] at h2
        subst h2
        simp [sortByKey]
      · rw [h2, set_same h3]; simp
    rw [this]
    exact ih (fun k' hk' => ht k' (by simp [hk']))

theorem sortByKey_idem {V : Type} (d : Dict Str V) : sortByKey (sortByKey d) = sortByKey d :=
  List.mergeSort_of_pairwise (sortByKey_sorted d)

end Nxt.LayerData
