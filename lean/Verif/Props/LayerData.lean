import Verif.Lemmas.LayerData
/-!
# Properties C57 and C59: loading and saving whole layers
-/
namespace Nxt.Props
open Dict Layer NodeData LayerData Spec

/-! ## C59 -/

/-- C59: loading the nodes of a file (distinct, well formed paths, node data which load one by one)
gives a table in path order.  Every node is as loaded by itself, except that its child order is
completed, at the end, with the children found in the file which it does not list, in path order. -/
theorem C59_load_child_orders (layer : Option Str) (nodes : Dict Str Val) (hok : Ok nodes)
    (hv : ∀ p ∈ keys nodes, ∃ ns, Names ns ∧ p = render ns)
    (hmk : ∀ p v, (p, v) ∈ nodes → ∃ d n, v = .dict d ∧ constructNode layer p d = some n) :
    ∃ T, constructNodes layer nodes = some T ∧ keys T = (keys nodes).mergeSort strLe ∧
      ∀ p d n0, (p, .dict d) ∈ nodes → constructNode layer p d = some n0 →
        ∃ (o : List Str) (n : Dict Str Val), o.Nodup ∧
          get? A_CHILD_ORDER n0 = some (.list (o.map Val.str)) ∧ get? p T = some n ∧
          keys n = keys n0 ∧ (∀ a, a ≠ A_CHILD_ORDER → get? a n = get? a n0) ∧
          get? A_CHILD_ORDER n = some (.list ((o ++ missing (keys T) o p).map Val.str)) ∧
          (missing (keys T) o p = [] → n = n0) := by
  let asNode : Str → Dict Str Val := fun p =>
    match get? p nodes with
    | some (.dict d) => (constructNode layer p d).getD []
    | _ => []
  let ord : Str → List Str := fun p => (names (getAttr (asNode p) A_CHILD_ORDER)).getD []
  have hnode : ∀ p d n0, (p, .dict d) ∈ nodes → constructNode layer p d = some n0 → asNode p = n0 := by
    intro p d n0 h1 h2
    simp only [asNode, get?_of_mem hok h1, h2, Option.getD_some]
  have hordn : ∀ p d n0, (p, .dict d) ∈ nodes → constructNode layer p d = some n0 →
      get? A_CHILD_ORDER n0 = some (.list ((ord p).map Val.str)) ∧ (ord p).Nodup := by
    intro p d n0 h1 h2
    obtain ⟨o, ho, hg⟩ := createSpecNode_childOrder h2
    have : ord p = o := by
      simp only [ord, hnode p d n0 h1 h2, getAttr_of_get? hg, names_map, Option.getD_some]
    rw [this]
    exact ⟨hg, ho⟩
  obtain ⟨p1, s1⟩ := C24_order_nodes_dict nodes hok
  have hkeys : ∀ q, q ∈ keys (orderNodesDict nodes) ↔ q ∈ keys nodes := fun q => (p1.map Prod.fst).mem_iff
  obtain ⟨T, hT, inv⟩ := loadNodes_spec layer asNode ord (orderNodesDict nodes) [] [] (by simpa using s1)
    (by rw [List.nil_append]; exact ok_perm hok p1.symm) (fun q hq => hv q ((hkeys q).1 (by simpa using hq)))
    (fun p v h => by
      obtain ⟨d, n, rfl, hc⟩ := hmk p v (p1.mem_iff.1 h)
      refine ⟨d, rfl, ?_, ?_⟩
      · rw [hnode p d n (p1.mem_iff.1 h) hc]; exact hc
      · rw [hnode p d n (p1.mem_iff.1 h) hc]; exact hordn p d n (p1.mem_iff.1 h) hc)
    (by simp) ⟨rfl, by simp⟩
  rw [List.nil_append] at inv
  refine ⟨T, hT, by rw [inv.keys, keys_orderNodesDict nodes hok], ?_⟩
  intro p d n0 h1 h2
  obtain ⟨n, e1, ⟨e5, e2⟩, e3, e4⟩ := inv.node p ((hkeys p).2 (mem_keys_of_mem h1))
  obtain ⟨g1, g2⟩ := hordn p d n0 h1 h2
  rw [hnode p d n0 h1 h2] at e2 e4 e5
  rw [inv.keys]
  exact ⟨ord p, n, g2, g1, e1, e5, e2, e3, e4⟩

/-- C59: in a loaded layer every node whose parent is in the layer is in the parent's child order. -/
theorem C59_children_listed (layer : Option Str) (nodes : Dict Str Val) (hok : Ok nodes)
    (hv : ∀ p ∈ keys nodes, ∃ ns, Names ns ∧ p = render ns)
    (hmk : ∀ p v, (p, v) ∈ nodes → ∃ d n, v = .dict d ∧ constructNode layer p d = some n)
    (T : Dict Str (Dict Str Val)) (hT : constructNodes layer nodes = some T) (q : Str) (hq : q ∈ keys T)
    (n : Dict Str Val) (hn : get? (Path.parentPath q) T = some n) :
    ∃ co : List Str, get? A_CHILD_ORDER n = some (.list (co.map Val.str)) ∧ co.Nodup ∧ Path.nodeName q ∈ co := by
  obtain ⟨T', h1, h2, h3⟩ := C59_load_child_orders layer nodes hok hv hmk
  rw [hT] at h1
  cases h1
  have hp : Path.parentPath q ∈ keys nodes := by
    have : Path.parentPath q ∈ keys T := get?_isSome.1 (by rw [hn]; rfl)
    rw [h2] at this
    exact (List.mergeSort_perm _ _).mem_iff.1 this
  obtain ⟨v, hv'⟩ := mem_keys.1 hp
  obtain ⟨d, n0, rfl, hc⟩ := hmk _ _ hv'
  obtain ⟨o, n', ho, g1, g2, gk, g3, g4, g5⟩ := h3 _ d n0 hv' hc
  rw [hn] at g2
  cases g2
  have hTn : (keys T).Nodup := by
    rw [h2]; exact (List.mergeSort_perm _ _).nodup_iff.2 hok
  refine ⟨_, g4, nodup_missing _ hTn ?_ ho, ?_⟩
  · intro x hx
    rw [h2] at hx
    exact hv x ((List.mergeSort_perm _ _).mem_iff.1 hx)
  · rw [List.mem_append]
    by_cases hin : Path.nodeName q ∈ o
    · exact .inl hin
    · right
      unfold missing
      rw [List.mem_filter, List.mem_map]
      exact ⟨⟨q, List.mem_filter.2 ⟨hq, by simp⟩, rfl⟩, by simpa using hin⟩

/-- Two nodes, the parent listing a child which is not there: the other is added behind. -/
example :
    let nodes : Dict Str Val := [("/a".toList, .dict [("child_order".toList, .list [.str ['z']])]),
      ("/a/b".toList, .dict [])]
    Ok nodes ∧ (∀ p ∈ keys nodes, ∃ ns, Names ns ∧ p = render ns) ∧
    (((constructNodes none nodes).bind (get? "/a".toList)).bind (get? A_CHILD_ORDER)).bind names
      = some ["z".toList, "b".toList] := by
  intro nodes
  refine ⟨by decide +kernel, ?_, by
    unfold constructNodes orderNodesDict
    rw [List.mergeSort_of_pairwise (by decide +kernel)]
    decide +kernel⟩
  intro p hp
  simp only [nodes, keys, List.map_cons, List.map_nil, List.mem_cons, List.not_mem_nil, or_false] at hp
  rcases hp with rfl | rfl
  · exact ⟨["a".toList], by decide +kernel, by decide +kernel⟩
  · exact ⟨["a".toList, "b".toList], by decide +kernel, by decide +kernel⟩

/-! ## C57 -/

/-- A table of nodes as the editor leaves it: well formed paths, each node knows its name, child orders
are lists of distinct names which list every child present.  Nothing is asked of the child order of the
world node but that it is a list of names. -/
structure GoodNodes (T : Dict Str (Dict Str Val)) (order : Str → List Str) : Prop where
  ok : Ok T
  path : ∀ p ∈ keys T, ∃ ns, Names ns ∧ p = render ns
  node : ∀ p n, get? p T = some n → Ok n ∧ getAttr n A_NAME = .str (Path.nodeName p) ∧
    getAttr n A_CHILD_ORDER = .list ((order p).map Val.str)
  listed : ∀ p ∈ keys T, p ≠ Path.WORLD → (order p).Nodup ∧
    ∀ q ∈ keys T, Path.parentPath q = p → Path.nodeName q ∈ order p

/-- C57: the nodes of a saved layer load again: same paths, every node as in `C25_round_trip`, no name twice in a child
order, and saving them again gives the same data. -/
theorem C57_nodes_round_trip (b : List Str) (layer : Option Str) (T : Dict Str (Dict Str Val))
    (order : Str → List Str) (g : GoodNodes T order) :
    ∃ T', constructNodes layer (nodesSaveData b T) = some T' ∧
      (keys T').Perm (keys T) ∧
      (∀ p n, get? p T = some n → ∃ n' n0, get? p T' = some n' ∧
        constructNode layer p (saveNode b n) = some n0 ∧
        (∀ a, a ≠ A_CHILD_ORDER → get? a n' = get? a n0) ∧
        (p ≠ Path.WORLD → n' = n0) ∧ keys n' = keys n0 ∧
        ∃ co : List Str, get? A_CHILD_ORDER n' = some (.list (co.map Val.str)) ∧ co.Nodup) ∧
      nodesSaveData b T' = nodesSaveData b T := by
  have hmapOk : Ok (T.map (fun pn => (pn.1, Val.dict (saveNode b pn.2)))) := by
    unfold Ok keys
    rw [List.map_map]
    exact g.ok
  have hp := (C24_order_nodes_dict _ hmapOk).1
  have hD : Ok (nodesSaveData b T) := by rw [nodesSaveData_eq b T g.ok]; exact ok_perm hmapOk hp.symm
  have hmem : ∀ p v, (p, v) ∈ nodesSaveData b T ↔ ∃ n, get? p T = some n ∧ v = .dict (saveNode b n) := by
    intro p v
    rw [nodesSaveData_eq b T g.ok, hp.mem_iff, List.mem_map]
    constructor
    · rintro ⟨⟨q, n⟩, h1, h2⟩
      cases h2
      exact ⟨n, get?_of_mem g.ok h1, rfl⟩
    · rintro ⟨n, h1, rfl⟩
      exact ⟨(p, n), mem_of_get? h1, rfl⟩
  have hkeys : ∀ p, p ∈ keys (nodesSaveData b T) ↔ p ∈ keys T := by
    intro p
    rw [mem_keys]
    constructor
    · rintro ⟨v, hv⟩
      obtain ⟨n, h1, _⟩ := (hmem p v).1 hv
      exact get?_isSome.1 (by rw [h1]; rfl)
    · intro h
      obtain ⟨n, h1⟩ := Option.isSome_iff_exists.1 (get?_isSome.2 h)
      exact ⟨_, (hmem p _).2 ⟨n, h1, rfl⟩⟩
  have hcons : ∀ p n, get? p T = some n → ∃ n0, constructNode layer p (saveNode b n) = some n0 := by
    intro p n h
    obtain ⟨h1, h2, h3⟩ := g.node p n h
    obtain ⟨n0, hn0, _⟩ := C25_round_trip b n layer p _ h1 h3
    exact ⟨n0, hn0⟩
  obtain ⟨T', hT', hk', hl'⟩ := C59_load_child_orders layer (nodesSaveData b T) hD
    (fun p hp => g.path p ((hkeys p).1 hp)) (fun p v h => by
      obtain ⟨n, h1, rfl⟩ := (hmem p v).1 h
      obtain ⟨n0, hn0⟩ := hcons p n h1
      exact ⟨_, n0, rfl, hn0⟩)
  have hperm : (keys T').Perm (keys T) := by
    rw [hk']
    refine (List.mergeSort_perm _ _).trans ?_
    rw [List.perm_ext_iff_of_nodup hD g.ok]
    exact hkeys
  have hnode : ∀ p n, get? p T = some n → ∃ n' n0, get? p T' = some n' ∧
        constructNode layer p (saveNode b n) = some n0 ∧
        (∀ a, a ≠ A_CHILD_ORDER → get? a n' = get? a n0) ∧
        keys n' = keys n0 ∧
        (p ≠ Path.WORLD → n' = n0) ∧
        ∃ co : List Str, get? A_CHILD_ORDER n' = some (.list (co.map Val.str)) ∧ co.Nodup := by
    intro p n h
    obtain ⟨n0, hn0⟩ := hcons p n h
    obtain ⟨o, n', ho, g1, g2, gk, g3, g4, g5⟩ := hl' p _ n0 ((hmem p _).2 ⟨n, h, rfl⟩) hn0
    refine ⟨n', n0, g2, hn0, g3, gk, ?_, _, g4, nodup_missing _ (hperm.nodup_iff.2 g.ok)
      (fun q hq => g.path q (hperm.mem_iff.1 hq)) ho⟩
    intro hw
    apply g5
    obtain ⟨h1, h2, h3⟩ := g.node p n h
    have hpk : p ∈ keys T := get?_isSome.1 (by rw [h]; rfl)
    obtain ⟨h4, h5⟩ := g.listed p hpk hw
    obtain ⟨m, hm, _, _, _, _, hco, _⟩ := C25_round_trip b n layer p _ h1 h3
    rw [hn0] at hm
    cases hm
    have hs : savedAttrs n = SAVED := by
      unfold savedAttrs
      rw [h2]
      have : Path.nodeName p ≠ Path.WORLD := by
        obtain ⟨ns, hns, rfl⟩ := g.path p hpk
        rcases Path.eq_nil_or_snoc ns with rfl | ⟨m, l, rfl⟩
        · exact absurd rfl hw
        · rw [(C09_parent_name_join m l hns).2.1]
          intro he
          have := (hns l (by simp)).2.1
          rw [he] at this
          exact this (by simp [Path.WORLD])
      simp only [if_neg this]
    rw [hs, if_pos (by decide +kernel), (dedup_spec _ [] List.nodup_nil).2.2 h4 (by simp), List.nil_append] at hco
    have ho' : o = order p := by
      rw [g1] at hco
      have := Option.some.inj hco
      have h6 := congrArg names this
      rw [names_map, names_map] at h6
      exact Option.some.inj h6
    unfold missing
    rw [List.filter_eq_nil_iff]
    intro c hc
    rw [List.mem_map] at hc
    obtain ⟨q, hq, rfl⟩ := hc
    rw [List.mem_filter] at hq
    have := h5 q (hperm.mem_iff.1 hq.1) (by simpa using hq.2)
    rw [ho']
    simpa using this
  have hT'ok : Ok T' := by
    unfold Ok; exact hperm.nodup_iff.2 g.ok
  have hsave : ∀ p n n', get? p T = some n → get? p T' = some n' → saveNode b n' = saveNode b n := by
    intro p n n' h h'
    obtain ⟨m', n0, e1, e2, e3, e4, e5, _⟩ := hnode p n h
    rw [h'] at e1
    cases e1
    obtain ⟨h1, h2, h3⟩ := g.node p n h
    have hpk : p ∈ keys T := get?_isSome.1 (by rw [h]; rfl)
    by_cases hw : p = Path.WORLD
    · subst hw
      have hns : A_CHILD_ORDER ∉ savedAttrs n := by
        unfold savedAttrs; rw [h2]; decide +kernel
      obtain ⟨m, hm, hmok, _, _, _, _, hnm, _⟩ := C25_round_trip b n layer _ _ h1 h3
      rw [e2] at hm
      cases hm
      rw [← C25_resave_stable b n n0 layer _ _ h1 h2 h3 (fun h => absurd h hns) e2]
      have gA : ∀ a, a ≠ A_CHILD_ORDER → getAttr n' a = getAttr n0 a := by
        intro a ha; unfold getAttr; rw [e3 a ha]
      have hnu : ∀ k, isUser b k = true → k ≠ A_CHILD_ORDER := by
        rintro k hk rfl
        unfold isUser at hk
        simp [TRACKED, UNTRACKED] at hk
      have hmeta : ∀ k, ∀ m ∈ METAS, k ++ m ≠ A_CHILD_ORDER := by
        intro k m hm he
        have h7 : m <:+ A_CHILD_ORDER := he ▸ List.suffix_append k m
        have : ∀ m ∈ METAS, ¬ m <:+ A_CHILD_ORDER := by decide +kernel
        exact this m hm h7
      have hs : savedAttrs n' = savedAttrs n0 := by
        unfold savedAttrs; rw [gA _ (by decide +kernel)]
      refine saveNode_congr b n0 n' hmok (by unfold Ok; rw [e4]; exact hmok) (fun k _ => by rw [e4]) ?_ hs ?_
      · intro k _ hk
        rw [subAttrs_eq, subAttrs_eq, gA k (hnu k hk), gA _ (hmeta k M_COMMENT (by simp [METAS])),
          gA _ (hmeta k M_TYPE (by simp [METAS]))]
      · intro a ha
        have h8 : a ≠ A_CHILD_ORDER := by
          rintro rfl
          have : savedAttrs n0 = savedAttrs n := by
            unfold savedAttrs; rw [h2, getAttr_of_get? hnm]
          exact hns (this ▸ ha)
        rw [gA a h8]
        exact ⟨rfl, fun _ => rfl⟩
    · rw [e5 hw]
      exact C25_resave_stable b n n0 layer p _ h1 h2 h3 (fun _ => (g.listed p hpk hw).1) e2
  refine ⟨T', hT', hperm, ?_, ?_⟩
  · intro p n h
    obtain ⟨n', n0, e1, e2, e3, e4, e5, e6⟩ := hnode p n h
    exact ⟨n', n0, e1, e2, e3, e5, e4, e6⟩
  · rw [nodesSaveData_eq b T' hT'ok, nodesSaveData_eq b T g.ok]
    apply orderNodesDict_congr
    · unfold Ok keys; rw [List.map_map]; exact hT'ok
    · apply perm_of_get?
      · unfold Ok keys; rw [List.map_map]; exact hT'ok
      · exact hmapOk
      · intro k
        have hmapget : ∀ (S : Dict Str (Dict Str Val)),
            get? k (S.map (fun pn => (pn.1, Val.dict (saveNode b pn.2))))
              = (get? k S).map (fun n => Val.dict (saveNode b n)) := by
          intro S
          induction S with
          | nil => rfl
          | cons e S ih =>
            obtain ⟨q, n⟩ := e
            rw [List.map_cons, get?, get?]
            split
            · rfl
            · exact ih
        rw [hmapget, hmapget]
        by_cases hk : k ∈ keys T
        · obtain ⟨n, hn⟩ := Option.isSome_iff_exists.1 (get?_isSome.2 hk)
          obtain ⟨n', hn'⟩ := Option.isSome_iff_exists.1 (get?_isSome.2 (hperm.mem_iff.2 hk))
          rw [hn, hn']
          simp only [Option.map_some]
          rw [hsave k n n' hn hn']
        · rw [get?_eq_none.2 hk, get?_eq_none.2 (fun h => hk (hperm.mem_iff.1 h))]

/-- The entries of the saved dict. -/
theorem get?_saved (b : List Str) (ver : Str) (s : LayerState) (md data : Dict Str Val)
    (hmd : getMetaData s.md = some md) (h : getSaveData b ver s = some data) (k : Str) :
    get? k data = (get? k (rawSaveData b ver s md)).filter (fun v => !v.isEmptyContainer) := by
  unfold getSaveData at h
  rw [hmd] at h
  have h1 := (Option.some.inj h).symm
  have hraw : Ok (rawSaveData b ver s md) := by
    unfold Ok rawSaveData keys
    simp only [List.map_cons, List.map_nil]
    decide +kernel
  have hf : ∀ l : Dict Str Val, Ok l → Ok (l.filter (fun kv => !kv.2.isEmptyContainer)) := by
    intro l hl
    exact (List.filter_sublist.map Prod.fst).nodup hl
  rw [h1]
  have hp := (C24_order_save_dict _ (hf _ hraw)).1
  rw [get?_perm (ok_perm (hf _ hraw) hp.symm) hp]
  generalize rawSaveData b ver s md = raw at hraw
  induction raw with
  | nil => rfl
  | cons e raw ih =>
    obtain ⟨q, v⟩ := e
    have hq : q ∉ keys raw := (List.nodup_cons.1 hraw).1
    have hr : Ok raw := (List.nodup_cons.1 hraw).2
    rw [List.filter_cons]
    by_cases hkq : k = q
    · subst hkq
      by_cases hv : v.isEmptyContainer = true
      · simp only [hv, Bool.not_true, Bool.false_eq_true, if_false]
        rw [ih hr, get?_eq_none.2 hq, get?, if_pos rfl]
        simp [Option.filter, hv]
      · simp only [Bool.not_eq_true] at hv
        simp only [hv, Bool.not_false, if_true]
        rw [get?, if_pos rfl, get?, if_pos rfl]
        simp [Option.filter, hv]
    · rw [get?.eq_def k ((q, v) :: raw)]
      simp only [if_neg (Ne.symm hkq)]
      rw [← ih hr]
      split
      · rw [get?, if_neg (Ne.symm hkq)]
      · rfl

/-- C57: no entry of a saved file is an empty list or an empty dict. -/
theorem C57_no_empty_entries (b : List Str) (ver : Str) (s : LayerState) (data : Dict Str Val)
    (h : getSaveData b ver s = some data) (k : Str) (v : Val) (hv : get? k data = some v) : v ≠ .list [] ∧ v ≠ .dict [] := by
  cases hmd : getMetaData s.md with
  | none => unfold getSaveData at h; rw [hmd] at h; cases h
  | some md =>
    rw [get?_saved b ver s md data hmd h k] at hv
    have := (Option.filter_eq_some_iff.1 hv).2
    constructor <;> rintro rfl <;> simp [Val.isEmptyContainer] at this

/-- C57: saving a layer and loading what was saved.  Alias, colour, overrides, the tables of the meta
data, the rest of the meta data and the nodes come back (the tables sorted by key); empty references
are gone; mute, solo and lock are lost. -/
theorem C57_round_trip_partial (b : List Str) (ver fileName : Str) (layer : Option Str) (s : LayerState)
    (order : Str → List Str) (g : GoodNodes s.nodes order)
    (hmd : ∀ k ∈ layerTables, (s.md.table k).isSome) :
    ∃ data s', getSaveData b ver s = some data ∧ loadLayer layer fileName data = some s' ∧
      s'.alias = s.alias ∧ s'.color = (if s.color.isEmptyContainer then .none else s.color) ∧
      s'.refs = s.refs.filter (fun r => !r.isEmpty) ∧ s'.overs = sortByKey s.overs ∧
      (∀ k ∈ layerTables, s'.md.table k = (s.md.table k).map sortByKey) ∧
      (∀ k, k ∉ layerTables → get? k s'.md.input = get? k s.md.input) ∧
      constructNodes layer (nodesSaveData b s.nodes) = some s'.nodes ∧
      s'.mute = false ∧ s'.solo = false ∧ s'.lock = .bool false := by
  have hlt : layerTables = TABLE_KEYS := rfl
  rw [hlt] at hmd ⊢
  obtain ⟨md, h1, h2, h3, h4⟩ := metaFold_spec s.md TABLE_KEYS s.md.input hmd (by decide +kernel)
  have hmd' : getMetaData s.md = some md := h1
  obtain ⟨T', hT', -⟩ := C57_nodes_round_trip b layer s.nodes order g
  obtain ⟨data, hdata⟩ : ∃ data, getSaveData b ver s = some data := by
    unfold getSaveData; rw [hmd']; exact ⟨_, rfl⟩
  have hg := get?_saved b ver s md _ hmd' hdata
  have e1 : aliasEntry fileName data = some s.alias := by
    unfold aliasEntry
    rw [hg, show get? "alias".toList (rawSaveData b ver s md) = some (.str s.alias) from rfl]
    rfl
  have hd : ∀ k d, get? k (rawSaveData b ver s md) = some (.dict d) → dictEntry k data = some d := by
    intro k d h
    unfold dictEntry
    rw [hg, h]
    cases d with
    | nil => rfl
    | cons _ _ => rfl
  have e2 : dictEntry "comp_overrides".toList data = some (sortByKey s.overs) := hd _ _ rfl
  have e3 : dictEntry "meta_data".toList data = some md := hd _ _ rfl
  have e4 : dictEntry "nodes".toList data = some (nodesSaveData b s.nodes) := hd _ _ rfl
  have e5 : refsEntry data = some (s.refs.filter (fun r => !r.isEmpty)) := by
    unfold refsEntry
    rw [hg, show get? "references".toList (rawSaveData b ver s md) = some (.list (s.refs.map Val.str)) from rfl]
    cases hr : s.refs with
    | nil => rfl
    | cons r rs =>
      have : (some (Val.list ((r :: rs).map Val.str))).filter (fun v => !v.isEmptyContainer)
          = some (Val.list ((r :: rs).map Val.str)) := rfl
      rw [this]
      simp only [names_map, Option.map_some]
  have e6 : get? "lock".toList data = none := by
    rw [hg, show get? "lock".toList (rawSaveData b ver s md) = none from rfl]; rfl
  have e7 : (get? "color".toList data).getD .none = if s.color.isEmptyContainer then .none else s.color := by
    rw [hg, show get? "color".toList (rawSaveData b ver s md) = some s.color from rfl]
    by_cases hc : s.color.isEmptyContainer = true
    · simp [Option.filter, hc]
    · simp [Option.filter, hc]
  refine ⟨data, ⟨s.alias, (get? "color".toList data).getD .none, false, false, 
      (get? "lock".toList data).getD (.bool false), s.refs.filter (fun r => !r.isEmpty), sortByKey s.overs,
      loadMeta md, T'⟩, hdata, by
    unfold loadLayer
    rw [e1, e2, e3, e4, e5]
    simp only [Option.bind_eq_bind, Option.bind_some, hT']
    rfl, rfl, e7, rfl, rfl, ?_, ?_, hT', rfl, rfl, by rw [e6]; rfl⟩
  · intro k hk
    obtain ⟨t, ht⟩ := Option.isSome_iff_exists.1 (hmd k hk)
    have h5 := h3 k hk t ht
    rw [ht]
    show (loadMeta md).table k = some (sortByKey t)
    unfold Meta.table loadMeta
    simp only
    rw [h5]
    cases t with
    | nil =>
      simp only [List.isEmpty_nil, if_true]
      have hsn : sortByKey ([] : Dict Str Val) = [] := by simp [sortByKey]
      rw [hsn]
      unfold Meta.table at ht
      cases hi : get? k s.md.input with
      | none => rfl
      | some v =>
        rw [hi] at ht
        cases v <;> first | (simp only [Option.some.injEq] at ht; subst ht; rfl) | (cases ht)
    | cons e t => rfl
  · intro k hk
    exact h4 k hk

/-- C57: once mute and solo are off, no reference is empty and the colour is not an empty container,
saving what was loaded from the saved data gives the same data again. -/
theorem C57_resave_stable (b : List Str) (ver fileName : Str) (layer : Option Str) (s s' : LayerState)
    (order : Str → List Str) (g : GoodNodes s.nodes order) (data : Dict Str Val)
    (hmute : s.mute = false) (hsolo : s.solo = false) (hrefs : ∀ r ∈ s.refs, r ≠ [])
    (hcolor : s.color.isEmptyContainer = false)
    (hsave : getSaveData b ver s = some data) (hload : loadLayer layer fileName data = some s') :
    getSaveData b ver s' = some data := by
  obtain ⟨md, hmd⟩ : ∃ md, getMetaData s.md = some md := by
    unfold getSaveData at hsave
    cases h : getMetaData s.md with
    | none => rw [h] at hsave; cases hsave
    | some md => exact ⟨md, rfl⟩
  have htab : ∀ k ∈ TABLE_KEYS, (s.md.table k).isSome := by
    have : ∀ (ks : List Str) (r r' : Dict Str Val), ks.foldlM (metaStep s.md) r = some r' →
        ∀ k ∈ ks, (s.md.table k).isSome := by
      intro ks
      induction ks with
      | nil => simp
      | cons k ks ih =>
        intro r r' h x hx
        rw [List.foldlM_cons] at h
        cases ht : s.md.table k with
        | none => unfold metaStep at h; rw [ht] at h; cases h
        | some t =>
          rcases List.mem_cons.1 hx with rfl | hx
          · rw [ht]; rfl
          · unfold metaStep at h
            rw [ht] at h
            exact ih _ _ h x hx
    exact this _ _ _ hmd
  obtain ⟨md', h1, h2, h3, h4⟩ := metaFold_spec s.md TABLE_KEYS s.md.input htab (by decide +kernel)
  have hmm : md' = md := Option.some.inj (h1.symm.trans hmd)
  subst hmm
  obtain ⟨data', s'', q1, q2, q3, q4, q5, q6, q7, q8, q9, q10, q11, q12⟩ :=
    C57_round_trip_partial b ver fileName layer s order g htab
  rw [hsave] at q1
  cases q1
  rw [hload] at q2
  cases q2
  obtain ⟨T', hT', _, _, hT4⟩ := C57_nodes_round_trip b layer s.nodes order g
  rw [q9] at hT'
  cases hT'
  have hin : s'.md = loadMeta md' := by
    unfold loadLayer at hload
    have hg := get?_saved b ver s md' _ hmd hsave
    have e3 : dictEntry "meta_data".toList data = some md' := by
      unfold dictEntry
      rw [hg, show get? "meta_data".toList (rawSaveData b ver s md') = some (.dict md') from rfl]
      cases md' <;> rfl
    simp only [Option.bind_eq_bind, Option.bind_eq_some_iff, e3] at hload
    obtain ⟨_, _, _, _, _, _, x, hx, _, _, _, _, he⟩ := hload
    cases hx
    cases he
    rfl
  have hmd2 : getMetaData s'.md = some md' := by
    rw [hin]
    apply metaFold_fixed
    intro k hk
    obtain ⟨t, ht⟩ := Option.isSome_iff_exists.1 (htab k hk)
    refine ⟨sortByKey t, ?_, ?_⟩
    · rw [← hin, q7 k hk, ht]; rfl
    · have h5 := h3 k hk t ht
      cases t with
      | nil => exact Or.inl (by simp [sortByKey])
      | cons e t => exact Or.inr ⟨sortByKey_idem _, h5⟩
  have hraw : rawSaveData b ver s' md' = rawSaveData b ver s md' := by
    unfold rawSaveData
    rw [q3, q10, q11, hmute, hsolo, q5, q6, q4, hcolor, hT4, sortByKey_idem,
      List.filter_eq_self.2 (by intro r hr; simpa using hrefs r hr)]
    rfl
  unfold getSaveData at hsave ⊢
  rw [hmd2, Option.map_some, hraw]
  rw [hmd] at hsave
  exact hsave

/-- The layer used below: muted and locked, one reference, one coloured node with a child. -/
def sampleLayer : LayerState :=
  { alias := "top".toList, color := .str "#991c24".toList, mute := true, solo := false, lock := .bool true,
    refs := ["./base.nxt".toList], overs := [("mute".toList, .dict [("./base.nxt".toList, .bool true)])],
    md := { input := [("positions".toList, .dict [("/a".toList, .list [.num 1, .num 2])])], own := fun _ => [] },
    nodes := [("/a".toList, [(A_NAME, .str ['a']), (A_CHILD_ORDER, .list [.str ['b']])]),
      ("/a/b".toList, [(A_NAME, .str ['b']), (A_CHILD_ORDER, .list [])])] }

theorem sampleLayer_good :
    GoodNodes sampleLayer.nodes (fun p => if p = "/a".toList then [['b']] else []) := by
  have hk : keys sampleLayer.nodes = ["/a".toList, "/a/b".toList] := rfl
  refine ⟨by decide +kernel, ?_, ?_, ?_⟩
  · intro p hp
    rw [hk] at hp
    simp only [List.mem_cons, List.not_mem_nil, or_false] at hp
    rcases hp with rfl | rfl
    · exact ⟨["a".toList], by decide +kernel, by decide +kernel⟩
    · exact ⟨["a".toList, "b".toList], by decide +kernel, by decide +kernel⟩
  · intro p n h
    have hm := mem_of_get? h
    simp only [sampleLayer, List.mem_cons, List.not_mem_nil, or_false] at hm
    rcases hm with hm | hm
    · cases hm; exact ⟨by decide +kernel, rfl, rfl⟩
    · cases hm; exact ⟨by decide +kernel, rfl, rfl⟩
  · intro p hp _
    rw [hk] at hp
    simp only [List.mem_cons, List.not_mem_nil, or_false] at hp
    rcases hp with rfl | rfl
    · exact ⟨by decide +kernel, by decide +kernel⟩
    · exact ⟨by decide +kernel, by decide +kernel⟩

theorem sampleLayer_tables : ∀ k ∈ TABLE_KEYS, (sampleLayer.md.table k).isSome := by
  intro k hk
  simp only [TABLE_KEYS, List.mem_cons, List.not_mem_nil, or_false] at hk
  rcases hk with rfl | rfl | rfl | rfl | rfl <;> rfl

/-- C57 violated: a muted, locked layer is saved and loaded; it comes back neither muted nor locked,
although `mute` was written to the file. -/
theorem C57_mute_lock_violation (b : List Str) (ver fileName : Str) (layer : Option Str) :
    ∃ data s', getSaveData b ver sampleLayer = some data ∧ loadLayer layer fileName data = some s' ∧
      get? "mute".toList data = some (.bool true) ∧ sampleLayer.mute = true ∧ s'.mute = false ∧
      sampleLayer.lock = .bool true ∧ s'.lock = .bool false := by
  obtain ⟨data, s', h1, h2, -, -, -, -, -, -, -, h3, -, h4⟩ :=
    C57_round_trip_partial b ver fileName layer sampleLayer _ sampleLayer_good sampleLayer_tables
  refine ⟨data, s', h1, h2, ?_, rfl, h3, rfl, h4⟩
  obtain ⟨md, hmd, -⟩ := metaFold_spec sampleLayer.md TABLE_KEYS sampleLayer.md.input sampleLayer_tables
    (by decide +kernel)
  rw [get?_saved b ver sampleLayer md data hmd h1]
  rfl

/-- A case of `C57_resave_stable`: the sample with mute off. -/
example (b : List Str) (ver fileName : Str) (layer : Option Str) :
    let s := { sampleLayer with mute := false }
    s.mute = false ∧ s.solo = false ∧ (∀ r ∈ s.refs, r ≠ []) ∧ s.color.isEmptyContainer = false ∧
    ∃ data s', getSaveData b ver s = some data ∧ loadLayer layer fileName data = some s' ∧
      getSaveData b ver s' = some data := by
  have h : ∀ r ∈ sampleLayer.refs, r ≠ [] := by decide +kernel
  refine ⟨rfl, rfl, h, rfl, ?_⟩
  obtain ⟨data, s', h1, h2, -⟩ :=
    C57_round_trip_partial b ver fileName layer { sampleLayer with mute := false } _ sampleLayer_good
      sampleLayer_tables
  exact ⟨data, s', h1, h2, C57_resave_stable b ver fileName layer { sampleLayer with mute := false } s' _
    sampleLayer_good data rfl rfl h rfl h1 h2⟩

end Nxt.Props
