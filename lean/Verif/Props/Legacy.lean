import Verif.Lemmas.Legacy115
/-!
# Properties of the save file converters: C28, C29, C60 to C63
-/
namespace Nxt.Props
open Dict Layer Legacy Spec

/-! ## C28 -/

/-- C28: arranging keeps exactly the nodes whose path has a `/`, each with its data. -/
theorem C28_arrange_keeps {V : Type} (nodes : Dict Str V) (h : Ok nodes) :
    (arrangeNodes nodes).Perm (nodes.filter (fun e => '/' ∈ e.1)) := by
  obtain ⟨hb, hall⟩ := arrangeOrder_basic (keys nodes)
  obtain ⟨h1, h2, h3⟩ := leftoverLoop_spec nodes (arrangeOrder (keys nodes)) []
    (fun k hk => (hb.sub k hk).1) hb.nodup ok_nil (by intro k hk; simp at hk)
  have hk : keys (arrangeNodes nodes) = arrangeOrder (keys nodes) := by
    unfold arrangeNodes; rw [h3]; simp
  have hmem : ∀ k, (1 ≤ depth k) ↔ '/' ∈ k := by
    intro k; unfold depth Py.count; exact List.one_le_count_iff
  have hf : Ok (nodes.filter (fun e => '/' ∈ e.1)) := (List.filter_sublist.map Prod.fst).nodup h
  have hfk : ∀ k, k ∈ keys (nodes.filter (fun e => '/' ∈ e.1)) ↔ k ∈ keys nodes ∧ '/' ∈ k := by
    intro k
    rw [mem_keys, mem_keys]
    constructor
    · rintro ⟨v, hv⟩; rw [List.mem_filter] at hv; exact ⟨⟨v, hv.1⟩, by simpa using hv.2⟩
    · rintro ⟨⟨v, hv⟩, h2⟩; exact ⟨v, List.mem_filter.2 ⟨hv, by simpa using h2⟩⟩
  apply perm_of_get? h1 hf
  intro k
  show get? k (arrangeNodes nodes) = _
  by_cases hm : k ∈ keys (arrangeNodes nodes)
  · have hk2 := hm
    rw [hk] at hk2
    obtain ⟨g1, g2⟩ := hb.sub k hk2
    obtain ⟨v, hv⟩ := mem_keys.1 g1
    rw [show get? k (arrangeNodes nodes) = get? k nodes from h2 k hm, get?_of_mem h hv,
      get?_of_mem hf (List.mem_filter.2 ⟨hv, by simpa using (hmem k).1 g2⟩)]
  · rw [get?_eq_none.2 hm, get?_eq_none.2]
    intro hc
    obtain ⟨g1, g2⟩ := (hfk k).1 hc
    exact hm (by rw [hk]; exact hall k g1 ((hmem k).2 g2))

/-- C28: when no path ends in `/`, a node is written after every other node of which it is below
(`p` is above `q` when `q` starts with `p/`). -/
theorem C28_ancestors_first_partial {V : Type} (nodes : Dict Str V) (h : Ok nodes)
    (hns : ∀ p ∈ keys nodes, ¬ ['/'] <:+ p) (p q : Str) (hp : p ∈ keys (arrangeNodes nodes))
    (A B : List Str) (hq : keys (arrangeNodes nodes) = A ++ q :: B) (hpq : p ++ ['/'] <+: q) : p ∈ A := by
  obtain ⟨hb, -⟩ := arrangeOrder_basic (keys nodes)
  obtain ⟨-, -, h3⟩ := leftoverLoop_spec nodes (arrangeOrder (keys nodes)) []
    (fun k hk => (hb.sub k hk).1) hb.nodup ok_nil (by intro k hk; simp at hk)
  have hk : keys (arrangeNodes nodes) = arrangeOrder (keys nodes) := by
    unfold arrangeNodes; rw [h3]; simp
  have hns' : ∀ p ∈ keys nodes, NoSlash p := by
    intro p hp
    exact Bool.eq_false_iff.2 (fun h => hns p hp (List.isSuffixOf_iff_suffix.1 h))
  rw [hk] at hp hq
  obtain ⟨g1, g2⟩ := hb.sub p hp
  obtain ⟨g3, -⟩ := hb.sub q (by rw [hq]; simp)
  refine arrangeOrder_ordered (keys nodes) hns' A q B hq p g1 g2 ?_ ?_
  · rintro rfl
    have := hpq.length_le
    simp at this
    omega
  · rw [isAncestor_iff (hns' q g3) (hns' p g1)]
    obtain ⟨t, ht⟩ := hpq
    exact ⟨t ++ ['/'], by rw [← ht]; simp⟩

/-- C28 violated when the world node is in the file: its grandchildren are written before its
children. -/
theorem C28_world_violation :
    keys (arrangeNodes [(['/'], 0), ("/a".toList, 1), ("/a/b".toList, 2)]) =
      [['/'], "/a/b".toList, "/a".toList] := by
  have e : ∀ d, atDepth [['/'], "/a".toList, "/a/b".toList] d =
      [['/'], "/a".toList, "/a/b".toList].filter (fun p => depth p = d) := by
    intro d
    unfold atDepth
    apply List.mergeSort_of_pairwise
    have : ([['/'], "/a".toList, "/a/b".toList]).Pairwise (fun a b => strLe a b = true) := by decide +kernel
    exact this.sublist List.filter_sublist
  have : arrangeOrder [['/'], "/a".toList, "/a/b".toList] = [['/'], "/a/b".toList, "/a".toList] := by
    unfold arrangeOrder
    simp only [e, show maxDepth [['/'], "/a".toList, "/a/b".toList] = 2 from by decide +kernel, handle]
    decide +kernel
  unfold arrangeNodes
  rw [show keys [(['/'], 0), ("/a".toList, 1), ("/a/b".toList, 2)] = [['/'], "/a".toList, "/a/b".toList] from rfl, this]
  decide +kernel

/-- A case of the partial theorem: a grandchild whose parent comes later in the file. -/
example : let nodes : Dict Str Nat := [("/a/b/c".toList, 0), ("/a".toList, 1), ("/a/b".toList, 2), ("/z".toList, 3)]
    Ok nodes ∧ (∀ p ∈ keys nodes, ¬ ['/'] <:+ p) ∧ "/a".toList ++ ['/'] <+: "/a/b/c".toList := by
  decide +kernel

/-! ## C29 -/

/-- C29: converting a 1.15 file of the expected shape succeeds.  The version becomes 1.16; every other
top level entry, the meta data and the overrides included, is the same JSON value; the nodes are the
same paths, and every node keeps exactly its known entries. -/
theorem C29_conversion_keeps_data (data : Dict Str Val) (h : Shape115 data) :
    ∃ r, convert115 data = some r ∧ Ok r ∧ get? "version".toList r = some (.str "1.16".toList) ∧
      (∀ k, k ≠ "version".toList → k ≠ "nodes".toList → SameOpt (get? k r) (get? k data)) ∧
      (∀ nodes, get? "nodes".toList data = some (.dict nodes) → ∃ nodes',
        get? "nodes".toList r = some (.dict nodes') ∧ Ok nodes' ∧
        (∀ p, get? p nodes' = none ↔ get? p nodes = none) ∧
        ∀ p nd, get? p nodes = some (.dict nd) → ∃ nd', get? p nodes' = some (.dict nd') ∧
          (∀ k ∈ nodeEntries115, SameOpt (get? k nd') (get? k nd)) ∧
          (∀ k, k ∉ nodeEntries115 → get? k nd' = none)) ∧
      (get? "nodes".toList data = none → get? "nodes".toList r = none) := by
  have hw := h.wf
  rw [wf] at hw
  have hget : ∀ k, k ≠ "version".toList →
      get? k (Dict.set "version".toList (.str "1.16".toList) data) = get? k data := by
    intro k hk; rw [get?_set, if_neg hk]
  have n1 : "nodes".toList ≠ "version".toList := by decide +kernel
  have n2 : "meta_data".toList ≠ "version".toList := by decide +kernel
  have n3 : "comp_overrides".toList ≠ "version".toList := by decide +kernel
  have m1 : "meta_data".toList ≠ "nodes".toList := by decide +kernel
  have m2 : "comp_overrides".toList ≠ "nodes".toList := by decide +kernel
  have m3 : "comp_overrides".toList ≠ "meta_data".toList := by decide +kernel
  have v1 : "version".toList ≠ "nodes".toList := n1.symm
  have v2 : "version".toList ≠ "meta_data".toList := n2.symm
  have v3 : "version".toList ≠ "comp_overrides".toList := n3.symm
  -- meta data
  have hmeta : ∀ v, get? "meta_data".toList data = some v →
      ∃ w, orderMeta v = some w ∧ SameOpt (some w) (some v) := by
    intro v hv
    obtain ⟨d, rfl, hd⟩ := h.metaData v hv
    have hwv := wfPairs_mem hw.2 hv
    rw [wf] at hwv
    obtain ⟨r, h1, h2, h3⟩ := orderAll_spec (fun _ => sortDict) d hwv.1 META_KEYS (by decide +kernel) (by
      intro k hk t ht
      obtain ⟨w, hw', _⟩ := sortDict_spec (wfPairs_mem hwv.2 ht) (hd k ((mem_metaKeys k).1 hk) t ht)
      rw [hw']; rfl)
    refine ⟨.dict r, by rw [orderMeta, h1]; rfl, sameOpt_dict (fun k => ?_)⟩
    rw [h3 k]
    by_cases hk : k ∈ META_KEYS
    · rw [if_pos hk]
      cases hg : get? k d with
      | none => exact sameOpt_refl _
      | some t =>
        obtain ⟨w, hw', hs⟩ := sortDict_spec (wfPairs_mem hwv.2 hg) (hd k ((mem_metaKeys k).1 hk) t hg)
        rw [Option.bind_some, hw']
        exact hs
    · rw [if_neg hk]; exact sameOpt_refl _
  -- nodes
  have hnodes : ∀ nodes, get? "nodes".toList data = some (.dict nodes) →
      ∃ nodes', orderNodes115 (.dict nodes) = some (.dict nodes') ∧ Ok nodes' ∧
        (∀ p, get? p nodes' = none ↔ get? p nodes = none) ∧
        ∀ p nd, get? p nodes = some (.dict nd) → ∃ nd', get? p nodes' = some (.dict nd') ∧
          (∀ k ∈ nodeEntries115, SameOpt (get? k nd') (get? k nd)) ∧
          (∀ k, k ∉ nodeEntries115 → get? k nd' = none) := by
    intro nodes hn
    obtain ⟨d, he, hd⟩ := h.nodes _ hn
    cases he
    have hwn := wfPairs_mem hw.2 hn
    rw [wf] at hwn
    have hone : ∀ p n, get? p nodes = some n → ∃ nd, n = .dict nd ∧ ∃ nd', orderNodeData n = some (.dict nd') ∧
        Ok nd' ∧ (∀ k ∈ nodeEntries115, SameOpt (get? k nd') (get? k nd)) ∧ (∀ k, k ∉ nodeEntries115 → get? k nd' = none) := by
      intro p n hp
      obtain ⟨nd, rfl, ha⟩ := hd p n hp
      exact ⟨nd, rfl, orderNodeData_spec (wfPairs_mem hwn.2 hp) ha⟩
    obtain ⟨r, h1, h2, h3⟩ := mapSorted_spec orderNodeData nodes hwn.1 (fun p n hp => by
      obtain ⟨nd, _, nd', h, _⟩ := hone p n hp
      rw [h]; rfl)
    refine ⟨r, by rw [orderNodes115, h1]; rfl, h2, ?_, ?_⟩
    · intro p
      rw [h3 p]
      cases hp : get? p nodes with
      | none => simp
      | some n =>
        obtain ⟨nd, _, nd', h, _⟩ := hone p n hp
        rw [Option.bind_some, h]; simp
    · intro p nd hp
      obtain ⟨nd0, e0, nd', g1, g2, g3, g4⟩ := hone p _ hp
      cases e0
      exact ⟨nd', by rw [h3 p, hp, Option.bind_some, g1], g3, g4⟩
  obtain ⟨r, h1, h2, h3⟩ := orderAll_spec topKey (Dict.set "version".toList (.str "1.16".toList) data)
    (ok_set hw.1 _ _) SAVE_ORDER (by decide +kernel) (by
      intro k hk v hv
      unfold topKey
      by_cases e1 : k = "nodes".toList
      · rw [if_pos e1]
        subst e1
        rw [hget _ n1] at hv
        obtain ⟨d, rfl, _⟩ := h.nodes v hv
        obtain ⟨x, hx, _⟩ := hnodes d hv
        rw [hx]; rfl
      · rw [if_neg e1]
        by_cases e2 : k = "meta_data".toList
        · rw [if_pos e2]
          subst e2
          rw [hget _ n2] at hv
          obtain ⟨w, hw', _⟩ := hmeta v hv
          rw [hw']; rfl
        · rw [if_neg e2]
          by_cases e3 : k = "comp_overrides".toList
          · rw [if_pos e3]
            subst e3
            rw [hget _ n3] at hv
            obtain ⟨d, rfl⟩ := h.overs v hv
            rfl
          · rw [if_neg e3]; rfl)
  have inS : ∀ k ∈ ["version".toList, "nodes".toList, "meta_data".toList, "comp_overrides".toList],
      k ∈ SAVE_ORDER := by decide +kernel
  refine ⟨r, h1, h2, ?_, ?_, ?_, ?_⟩
  · rw [h3, if_pos (inS _ (by simp)), get?_set, if_pos rfl, Option.bind_some]
    unfold topKey
    rw [if_neg v1, if_neg v2, if_neg v3]
  · intro k k1 k2
    rw [h3 k, hget k k1]
    by_cases hk : k ∈ SAVE_ORDER
    · rw [if_pos hk]
      cases hg : get? k data with
      | none => exact sameOpt_refl _
      | some v =>
        rw [Option.bind_some]
        unfold topKey
        rw [if_neg k2]
        by_cases e2 : k = "meta_data".toList
        · rw [if_pos e2]
          subst e2
          obtain ⟨w, hw', hs⟩ := hmeta v hg
          rw [hw']; exact hs
        · rw [if_neg e2]
          by_cases e3 : k = "comp_overrides".toList
          · rw [if_pos e3]
            subst e3
            obtain ⟨w, hw', hs⟩ := sortDict_spec (wfPairs_mem hw.2 hg) (h.overs v hg)
            rw [hw']; exact hs
          · rw [if_neg e3]; exact sameOpt_refl _
    · rw [if_neg hk]; exact sameOpt_refl _
  · intro nodes hn
    obtain ⟨nodes', g1, g2, g3, g4⟩ := hnodes nodes hn
    refine ⟨nodes', ?_, g2, g3, g4⟩
    rw [h3, if_pos (inS _ (by simp)), hget _ n1, hn, Option.bind_some]
    unfold topKey
    rw [if_pos rfl, g1]
  · intro hn
    rw [h3, if_pos (inS _ (by simp)), hget _ n1, hn]; rfl

/-- A case of `C29_conversion_keeps_data`: the file has all the parts the converter looks into. -/
example : let attrs : Val := .dict [("b".toList, .dict [("value".toList, .str ['1'])]), ("a".toList, .dict [])]
    let data : Dict Str Val :=
      [("nodes".toList, .dict [("/a".toList, .dict [("code".toList, .list []), ("attrs".toList, attrs)])]),
       ("meta_data".toList, .dict [("colors".toList, .dict [("x".toList, .str ['r'])]), ("other".toList, .num 1)]),
       ("comp_overrides".toList, .dict []), ("extra".toList, .bool true)]
    Shape115 data := by
  refine ⟨?_, ?_, ?_, ?_⟩
  · simp only [wf, wfPairs, wfList, and_true, true_and]
    decide +kernel
  · intro v hv
    cases hv
    refine ⟨_, rfl, fun p n hp => ?_⟩
    have : n = .dict [("code".toList, .list []), ("attrs".toList, _)] := (Option.some.inj ((by
      by_cases h : "/a".toList = p
      · subst h; exact hp.symm.trans rfl
      · rw [get?, if_neg h] at hp; cases hp)))
    subst this
    refine ⟨_, rfl, fun a ha => ?_⟩
    cases ha
    intro k v hk
    have := mem_of_get? hk
    rcases List.mem_cons.1 this with h | h
    · cases h; exact ⟨_, rfl⟩
    · cases List.mem_singleton.1 h; exact ⟨_, rfl⟩
  · intro v hv
    cases hv
    refine ⟨_, rfl, fun k hk t ht => ?_⟩
    rcases List.mem_cons.1 (mem_of_get? ht) with h | h
    · cases h; exact ⟨_, rfl⟩
    · cases List.mem_singleton.1 h
      exact absurd hk (by decide +kernel)
  · intro v hv
    cases hv
    exact ⟨_, rfl⟩

/-- C29: an entry of a node outside the known list is lost. -/
theorem C29_unknown_node_key_lost :
    ∃ r nodes', convert115 [("nodes".toList, .dict [("/a".toList, .dict [("custom".toList, .num 1)])])] = some r ∧
      get? "nodes".toList r = some (.dict nodes') ∧ get? "/a".toList nodes' = some (.dict []) := by
  refine ⟨[("version".toList, .str "1.16".toList), ("nodes".toList, .dict [("/a".toList, .dict [])])],
    [("/a".toList, .dict [])], ?_, rfl, rfl⟩
  simp [convert115, orderSave115, orderAll, orderConv, SAVE_ORDER, keys, Dict.set, get?, topKey, orderNodes115,
    sortByKey, mapVals, orderNodeData, NODE_KEYS, leftoverLoop]

/-! ## C61 -/

/-- C61: moving known keys to the end at every level changes no value: whatever is found by a chain of
keys and indexes before is found after, and the other way round. -/
theorem C61_deep_order_same (order : List Str) (d : Dict Str Val) (h : wf (.dict d)) :
    Ok (deepOrder order d) ∧ SameJson (.dict (deepOrder order d)) (.dict d) := by
  have h' := h
  rw [wf] at h'
  have hok : Ok (deepPairs order d) := by unfold Ok; rw [keys_deepPairs]; exact h'.1
  refine ⟨(reorder_spec order _ hok).1, ?_⟩
  have := deepVal_same order (.dict d) h
  rw [deepVal] at this
  exact this

/-- C61: the 1.14 conversion sets the version, removes `mute` and `solo` when they are false, and keeps
every other entry; a node is found at the same place when its path has a slash. -/
theorem C61_convert114_keeps (data : Dict Str Val) (h : wf (.dict data))
    (hn : ∀ v, get? "nodes".toList data = some v → ∃ d, v = .dict d) :
    ∃ r, convert114 data = some r ∧
      get? "version".toList r = some (.str "1.15".toList) ∧
      (∀ k, k ≠ "version".toList → k ≠ "nodes".toList → k ≠ "mute".toList → k ≠ "solo".toList →
        SameOpt (get? k r) (get? k data)) ∧
      (∀ k, k = "mute".toList ∨ k = "solo".toList →
        (get? k data = some (.bool false) → get? k r = none) ∧
        (get? k data ≠ some (.bool false) → SameOpt (get? k r) (get? k data))) ∧
      (∀ nodes, get? "nodes".toList data = some (.dict nodes) →
        ∃ nodes', get? "nodes".toList r = some (.dict nodes') ∧
          ∀ p, SameOpt (get? p nodes') (if '/' ∈ p then get? p nodes else none)) := by
  have mv : "mute".toList ≠ "version".toList := by decide +kernel
  have sv : "solo".toList ≠ "version".toList := by decide +kernel
  have ms : "mute".toList ≠ "solo".toList := by decide +kernel
  have mn : "mute".toList ≠ "nodes".toList := by decide +kernel
  have sn : "solo".toList ≠ "nodes".toList := by decide +kernel
  have vn : "version".toList ≠ "nodes".toList := by decide +kernel
  unfold convert114
  have h1 := wf_set h "version".toList (v := .str "1.15".toList) (by simp [wf])
  have e1 : ∀ k, k ≠ "version".toList → get? k (Dict.set "version".toList (.str "1.15".toList) data) = get? k data :=
    fun k hk => by rw [get?_set, if_neg hk]
  have e1v : get? "version".toList (Dict.set "version".toList (.str "1.15".toList) data) = some (.str "1.15".toList) := by
    rw [get?_set, if_pos rfl]
  simp only
  generalize Dict.set "version".toList (.str "1.15".toList) data = d1 at h1 e1 e1v
  obtain ⟨h2, e2, e2f, e2t⟩ := popFalse_get h1 "mute".toList
  generalize (if isFalse (get? "mute".toList d1) then erase "mute".toList d1 else d1) = d2 at h2 e2 e2f e2t
  obtain ⟨h3, e3, e3f, e3t⟩ := popFalse_get h2 "solo".toList
  generalize (if isFalse (get? "solo".toList d2) then erase "solo".toList d2 else d2) = d3 at h3 e3 e3f e3t
  rw [e2 _ ms.symm, e1 _ sv] at e3f e3t
  rw [e1 _ mv] at e2f e2t
  have hnodes : get? "nodes".toList d3 = get? "nodes".toList data := by
    rw [e3 _ sn.symm, e2 _ mn.symm, e1 _ vn.symm]
  -- the dict just before ordering
  have fin : ∀ d4 : Dict Str Val, wf (.dict d4) → (∀ k, k ≠ "nodes".toList → get? k d4 = get? k d3) →
      get? "version".toList (deepOrder KEYS_V109 d4) = some (.str "1.15".toList) ∧
      (∀ k, k ≠ "version".toList → k ≠ "nodes".toList → k ≠ "mute".toList → k ≠ "solo".toList →
        SameOpt (get? k (deepOrder KEYS_V109 d4)) (get? k data)) ∧
      (∀ k, k = "mute".toList ∨ k = "solo".toList →
        (get? k data = some (.bool false) → get? k (deepOrder KEYS_V109 d4) = none) ∧
        (get? k data ≠ some (.bool false) → SameOpt (get? k (deepOrder KEYS_V109 d4)) (get? k data))) := by
    intro d4 h4 e4
    obtain ⟨hok, hs⟩ := C61_deep_order_same KEYS_V109 d4 h4
    have hs' := sameJson_get hs
    have hmap : ∀ k, get? k (deepOrder KEYS_V109 d4) = (get? k d4).map (deepVal KEYS_V109) := by
      intro k
      unfold deepOrder
      have hok : Ok (deepPairs KEYS_V109 d4) := by
        unfold Ok; rw [keys_deepPairs]; exact ((wf_dict_iff d4).1 h4).1
      rw [(reorder_spec _ _ hok).2 k, get?_deepPairs]
    refine ⟨?_, ?_, ?_⟩
    · rw [hmap, e4 _ vn, e3 _ sv.symm, e2 _ mv.symm, e1v, Option.map_some, deepVal]
    · intro k k1 k2 k3 k4
      have := hs' k
      rw [e4 k k2, e3 k k4, e2 k k3, e1 k k1] at this
      exact this
    · rintro k (rfl | rfl)
      · refine ⟨fun hf => ?_, fun hf => ?_⟩
        · rw [hmap, e4 _ mn, e3 _ ms, e2f hf]; rfl
        · have := hs' "mute".toList
          rw [e4 _ mn, e3 _ ms, e2t hf] at this
          exact this
      · refine ⟨fun hf => ?_, fun hf => ?_⟩
        · rw [hmap, e4 _ sn, e3f hf]; rfl
        · have := hs' "solo".toList
          rw [e4 _ sn, e3t hf] at this
          exact this
  rw [hnodes]
  cases hg : get? "nodes".toList data with
  | none =>
    obtain ⟨f1, f2, f3⟩ := fin d3 h3 (fun _ _ => rfl)
    exact ⟨_, rfl, f1, f2, f3, fun nodes h => by cases h⟩
  | some v =>
    obtain ⟨nodes, rfl⟩ := hn v hg
    have hwn : wf (.dict nodes) := ((wf_dict_iff data).1 h).2 _ _ hg
    have hokn := ((wf_dict_iff nodes).1 hwn).1
    have hperm := C28_arrange_keeps nodes hokn
    have hoka : Ok (nodes.filter (fun e => '/' ∈ e.1)) := (List.filter_sublist.map Prod.fst).nodup hokn
    have hokr : Ok (arrangeNodes nodes) := (hperm.map Prod.fst).nodup_iff.2 hoka
    have hga : ∀ p, get? p (arrangeNodes nodes) = if '/' ∈ p then get? p nodes else none := by
      intro p
      rw [get?_perm hokr hperm]
      by_cases hp : '/' ∈ p
      · rw [if_pos hp]
        cases hx : get? p nodes with
        | none =>
          rw [get?_eq_none]
          intro hm
          obtain ⟨w, hw⟩ := mem_keys.1 hm
          exact get?_eq_none.1 hx (mem_keys_of_mem (List.mem_filter.1 hw).1)
        | some w => exact get?_of_mem hoka (List.mem_filter.2 ⟨mem_of_get? hx, by simpa using hp⟩)
      · rw [if_neg hp, get?_eq_none]
        intro hm
        obtain ⟨w, hw⟩ := mem_keys.1 hm
        have := (List.mem_filter.1 hw).2
        exact hp (by simpa using this)
    have hwa : wf (.dict (arrangeNodes nodes)) := by
      rw [wf_dict_iff]
      refine ⟨hokr, fun k w hk => ?_⟩
      rw [hga] at hk
      split at hk
      · exact ((wf_dict_iff nodes).1 hwn).2 k w hk
      · cases hk
    have h4 := wf_set h3 "nodes".toList hwa
    obtain ⟨f1, f2, f3⟩ := fin _ h4 (fun k hk => by rw [get?_set, if_neg hk])
    refine ⟨_, rfl, f1, f2, f3, ?_⟩
    intro nodes0 he
    cases he
    have hs := sameJson_get (C61_deep_order_same KEYS_V109 _ h4).2 "nodes".toList
    rw [get?_set, if_pos rfl] at hs
    obtain ⟨d', hd'⟩ := sameOpt_dict_left hs
    refine ⟨d', hd', fun p => ?_⟩
    rw [hd'] at hs
    rw [← hga p]
    exact sameJson_get hs p

/-- A case of `C61_deep_order_same`. -/
example : let d : Dict Str Val := [("code".toList, .list [.str ['x']]), ("name".toList, .dict [("solo".toList, .num 1)])]
    wf (.dict d) ∧ keys (deepOrder KEYS_V1 d) = ["name".toList, "code".toList] := by
  refine ⟨?_, by decide +kernel⟩
  simp [wf, wfPairs, wfList, Ok, keys]

/-! ## C60 -/

/-- C60: unpacking the tree of a pre-release file (sibling names distinct and without `/`) gives one
entry for every node of the tree, under the path spelled by the names leading to it, and no other. -/
theorem C60_unpack (starts : List Str) (roots : List LNode) (hg : GoodTree roots) :
    let table := unpackNodes starts ['/'] [] roots
    Ok table ∧ ∀ path d, get? path table = some d ↔
      ∃ ns n, At roots ns n ∧ path = slashed ns ∧ d = flatData starts path n := by
  obtain ⟨h1, h2, h3⟩ := unpackNodes_spec starts [] (by simp) [] roots hg
  refine ⟨h1 ok_nil, fun path d => ⟨fun h => ?_, ?_⟩⟩
  · by_cases hex : ∃ ns n, At roots ns n ∧ path = slashed ns
    · obtain ⟨ns, n, ha, rfl⟩ := hex
      refine ⟨ns, n, ha, rfl, ?_⟩
      have h' : get? (slashed ns) (unpackNodes starts (slashed [] ++ ['/']) [] roots) = some d := h
      have := h3 ns n ha
      rw [List.nil_append, h'] at this
      exact Option.some.inj this
    · have h' : get? path (unpackNodes starts (slashed [] ++ ['/']) [] roots) = some d := h
      rw [h2 path (fun ns m ha he => hex ⟨ns, m, ha, he⟩)] at h'
      cases h'
  · rintro ⟨ns, n, ha, rfl, rfl⟩
    exact h3 ns n ha

/-- C60: what the entry of a node holds. -/
theorem C60_flat_data (starts : List Str) (path name : Str)
    (widget execIn inst enabled compute comment attrs execOrder : Val) (children : List LNode) :
    let d := flatData starts path (.mk name widget execIn inst enabled compute comment attrs execOrder children)
    get? "execute_in".toList d = (if hasOpinion execIn then some execIn else none) ∧
    get? "instance".toList d = (if hasOpinion inst then some inst else none) ∧
    get? "enabled".toList d = (match enabled with | .none => none | v => some v) ∧
    get? "code".toList d = (if hasOpinion compute then some compute else none) ∧
    get? "comment".toList d = (if hasOpinion comment then some comment else none) ∧
    get? "attrs".toList d = (if hasOpinion attrs then some attrs else none) ∧
    get? "child_order".toList d = (if hasOpinion execOrder then some execOrder else none) ∧
    get? "start_point".toList d = (if path ∈ starts then some (.bool true) else none) := by
  have hen : ∀ (k : Str) (v : Val) (d : Dict Str Val), get? k (entryEnabled v d) =
      if k = "enabled".toList then (match v with | .none => get? k d | v => some v) else get? k d := by
    intro k v d
    cases v <;> simp only [entryEnabled, get?_set, ite_self]
  have hst : ∀ (k : Str) (d : Dict Str Val),
      get? k (if path ∈ starts then Dict.set "start_point".toList (.bool true) d else d) =
        if k = "start_point".toList then (if path ∈ starts then some (.bool true) else get? k d) else get? k d := by
    intro k d
    by_cases h : path ∈ starts
    · rw [if_pos h, if_pos h, get?_set]
    · rw [if_neg h, if_neg h, ite_self]
  have ne : ["widget_type".toList, "execute_in".toList, "instance".toList, "enabled".toList, "code".toList,
      "comment".toList, "attrs".toList, "child_order".toList, "start_point".toList].Pairwise (fun a b => a ≠ b ∧ b ≠ a) := by
    decide +kernel
  have hnil : ∀ k, get? k ([] : Dict Str Val) = none := fun _ => rfl
  simp only [flatData]
  generalize "widget_type".toList = k1 at *
  generalize "execute_in".toList = k2 at *
  generalize "instance".toList = k3 at *
  generalize "enabled".toList = k4 at *
  generalize "code".toList = k5 at *
  generalize "comment".toList = k6 at *
  generalize "attrs".toList = k7 at *
  generalize "child_order".toList = k8 at *
  generalize "start_point".toList = k9 at *
  simp only [List.pairwise_cons, List.mem_cons, List.not_mem_nil, or_false, forall_eq_or_imp, forall_eq,
    ne_eq] at ne
  obtain ⟨n1, n2, n3, n4, n5, n6, n7, n8, -⟩ := ne
  refine ⟨?_, ?_, ?_, ?_, ?_, ?_, ?_, ?_⟩
  all_goals
    rw [hst]
    simp only [n1, n2, n3, n4, n5, n6, n7, n8, get?_entry, hen, hnil, if_true, if_false]

/-- A case of `C60_unpack`: a node with a child of the same name. -/
example : let leaf : LNode := .mk "a".toList .none .none .none .none .none .none .none .none []
    let root : LNode := .mk "a".toList .none .none .none .none (.list [.str ['x']]) .none .none .none [leaf]
    GoodTree [root] ∧ At [root] ["a".toList, "a".toList] leaf ∧
    keys (unpackNodes [] ['/'] [] [root]) = ["/a".toList, "/a/a".toList] := by
  refine ⟨?_, At.under (List.mem_singleton.2 rfl) (At.here (List.mem_singleton.2 rfl)), by decide +kernel⟩
  refine GoodTree.mk (by simp) (by simp [lname]) ?_
  intro n hn
  rw [List.mem_singleton] at hn
  subst hn
  refine GoodTree.mk (by simp [lchildren]) (by simp [lchildren, lname]) ?_
  intro n hn
  have hn' := List.mem_singleton.1 hn
  subst hn'
  exact GoodTree.mk (by simp [lchildren]) (by simp [lchildren]) (by simp [lchildren])

/-! ## C62 -/

/-- C62: converting references: the list of references is the list of non-empty paths in order; alias,
colour, mute and solo of a path are those given last, or what was there before. -/
theorem C62_references (refs : List RefIn) (overs : Dict Str (Dict Str Val)) (aliases colors : Dict Str Val)
    (p : Str) (hp : p ≠ []) :
    let out := updateRefs refs overs aliases colors
    out.refs = (refs.map RefIn.path).filter (fun p => p ≠ []) ∧
    get? p out.aliases = (lastGiven RefIn.alias p refs).or (get? p aliases) ∧
    get? p out.colors = (lastGiven RefIn.color p refs).or (get? p colors) ∧
    (∀ k, get? k ((get? p out.overs).getD []) =
      (if k = "mute".toList then lastGiven RefIn.mute p refs
       else if k = "solo".toList then lastGiven RefIn.solo p refs else none).or
        (get? k ((get? p overs).getD []))) := by
  have hms : "mute".toList ≠ "solo".toList := by decide +kernel
  simp only
  unfold updateRefs
  induction refs using snocInduct with
  | nil =>
    refine ⟨rfl, rfl, rfl, fun k => ?_⟩
    have h0 : ∀ f, lastGiven f p [] = none := fun _ => rfl
    rw [h0, h0]
    simp
  | snoc refs r ih =>
    rw [List.foldl_append, List.foldl_cons, List.foldl_nil]
    generalize hst : refs.foldl refStep { refs := [], overs := overs, aliases := aliases, colors := colors } = st at ih
    obtain ⟨i1, i2, i3, i4⟩ := ih
    rw [lastGiven_snoc, lastGiven_snoc, lastGiven_snoc, lastGiven_snoc, List.map_append, List.filter_append]
    unfold refStep
    by_cases hr : r.path = []
    · have hpr : ¬ p = r.path := fun h => hp (h.trans hr)
      rw [if_pos (by simp [hr])]
      simp only [hpr, false_and, if_false]
      exact ⟨by simp [hr, i1], i2, i3, i4⟩
    · rw [if_neg (by simpa using hr)]
      refine ⟨by simp [hr, i1], ?_, ?_, ?_⟩
      · rw [get?_setUnlessNone, i2]
        by_cases hc : p = r.path ∧ notNone r.alias = true
        · rw [if_pos hc, if_pos hc]; rfl
        · rw [if_neg hc, if_neg hc]
      · rw [get?_setUnlessNone, i3]
        by_cases hc : p = r.path ∧ notNone r.color = true
        · rw [if_pos hc, if_pos hc]; rfl
        · rw [if_neg hc, if_neg hc]
      · intro k
        have key : get? k ((get? p (if (setUnlessNone "solo".toList r.solo (setUnlessNone "mute".toList r.mute
              ((get? r.path st.overs).getD []))).isEmpty then st.overs
            else Dict.set r.path (setUnlessNone "solo".toList r.solo (setUnlessNone "mute".toList r.mute
              ((get? r.path st.overs).getD []))) st.overs)).getD []) =
            if p = r.path then get? k (setUnlessNone "solo".toList r.solo (setUnlessNone "mute".toList r.mute
              ((get? p st.overs).getD []))) else get? k ((get? p st.overs).getD []) := by
          by_cases hpr : p = r.path
          · rw [if_pos hpr, ← hpr]
            split
            · rename_i hemp
              rw [List.isEmpty_iff] at hemp
              rw [hemp]
              have hsub : (get? p st.overs).getD [] = [] := by
                cases hq : (get? p st.overs).getD [] with
                | nil => rfl
                | cons e l =>
                  exfalso
                  have hh : ∀ x, get? x (setUnlessNone "solo".toList r.solo (setUnlessNone "mute".toList r.mute
                    ((get? p st.overs).getD []))) = none := by intro x; rw [hemp]; rfl
                  have := hh e.1
                  rw [get?_setUnlessNone, get?_setUnlessNone, hq] at this
                  split at this
                  · cases this
                  · split at this
                    · cases this
                    · obtain ⟨a, b⟩ := e
                      simp [get?] at this
              rw [hsub]
            · rw [get?_set, if_pos rfl]; rfl
          · rw [if_neg hpr]
            split
            · rfl
            · rw [get?_set, if_neg hpr]
        rw [key]
        by_cases hpr : p = r.path
        · rw [if_pos hpr, get?_setUnlessNone, get?_setUnlessNone, i4 k]
          simp only [hpr, true_and]
          by_cases k1 : k = "mute".toList
          · subst k1
            simp only [hms, false_and, if_false, if_true, true_and]
            split
            · rfl
            · rfl
          · by_cases k2 : k = "solo".toList
            · subst k2
              simp only [k1, false_and, if_false, if_true, true_and]
              split
              · rfl
              · rfl
            · simp only [k1, k2, false_and, if_false]
        · rw [if_neg hpr, i4 k]
          simp only [hpr, false_and, if_false]

/-! ## C63 -/

/-- A case of `C62_references`: two references to one file, the later one gives no mute. -/
example : let refs : List RefIn :=
      [⟨"a".toList, .bool true, .none, .str ['n'], .none⟩, ⟨[], .bool true, .none, .none, .none⟩,
       ⟨"a".toList, .none, .bool false, .none, .none⟩]
    let out := updateRefs refs [] [] []
    out.refs = ["a".toList, "a".toList] ∧
    lastGiven RefIn.mute "a".toList refs = some (.bool true) ∧
    out.overs = [("a".toList, [("mute".toList, .bool true), ("solo".toList, .bool false)])] := by
  refine ⟨by decide +kernel, rfl, rfl⟩

/-- C63: dropping removes exactly the nodes whose parent is in the file, has data, and does not list
them. -/
theorem C63_drop (nodes : Dict Str (Dict Str Val)) (h : Ok nodes) (ns : List Str) (n : Str)
    (hns : ∀ x ∈ ns ++ [n], '/' ∉ x) :
    let path := slashed (ns ++ [n])
    let unlisted := ∃ parent, get? (slashed ns) nodes = some parent ∧ parent ≠ [] ∧
      ¬ ∃ l, get? "child_order".toList parent = some (.list l) ∧ .str n ∈ l
    (unlisted → get? path (dropNodes nodes) = none) ∧
    (¬ unlisted → get? path (dropNodes nodes) = get? path nodes) := by
  simp only
  have hget : get? (slashed (ns ++ [n])) (dropNodes nodes) =
      if slashed (ns ++ [n]) ∈ keys nodes ∧ dropped nodes (slashed (ns ++ [n])) = true then none
      else get? (slashed (ns ++ [n])) nodes := by
    unfold dropNodes
    simp only
    rw [foldl_filter, List.nil_append, (foldl_erase _ nodes h).2]
    simp only [List.mem_filter]
  have hpar : parentPath (slashed (ns ++ [n])) = slashed ns := by
    unfold parentPath
    rw [split_slashed _ hns, ← List.cons_append, List.dropLast_concat, join_slashed]
  have hname : nameFromPath (slashed (ns ++ [n])) = n := by
    unfold nameFromPath
    rw [split_slashed _ hns, ← List.cons_append, List.getLast?_concat]; rfl
  have hlisted : ∀ v : Val, listed n v = true ↔ ∃ l, v = .list l ∧ Val.str n ∈ l := by
    intro v
    cases v with
    | list l =>
      unfold listed
      rw [List.any_eq_true]
      constructor
      · rintro ⟨x, hx, hm⟩
        refine ⟨l, rfl, ?_⟩
        split at hm
        · rename_i s
          have : s = n := by simpa using hm
          subst this
          exact hx
        · cases hm
      · rintro ⟨l', he, hm⟩
        cases he
        exact ⟨_, hm, by simp⟩
    | _ => simp [listed]
  have hdrop : dropped nodes (slashed (ns ++ [n])) = true ↔
      ∃ parent, get? (slashed ns) nodes = some parent ∧ parent ≠ [] ∧
        ¬ ∃ l, get? "child_order".toList parent = some (.list l) ∧ Val.str n ∈ l := by
    unfold dropped
    rw [hpar, hname]
    cases hp : get? (slashed ns) nodes with
    | none => simp
    | some parent =>
      simp only [Option.some.injEq, exists_eq_left', Bool.and_eq_true, Bool.not_eq_true',
        List.isEmpty_eq_false_iff]
      refine and_congr Iff.rfl ?_
      rw [← Bool.not_eq_true, hlisted]
      refine not_congr ?_
      cases hc : get? "child_order".toList parent with
      | none => simp
      | some v => simp
  rw [hget]
  constructor
  · intro hu
    by_cases hk : slashed (ns ++ [n]) ∈ keys nodes
    · rw [if_pos ⟨hk, hdrop.2 hu⟩]
    · rw [if_neg (fun h => hk h.1), get?_eq_none.2 hk]
  · intro hu
    rw [if_neg (fun h => hu (hdrop.1 h.2))]

/-- A case of each side of `C63_drop`. -/
example :
    let nodes : Dict Str (Dict Str Val) :=
      [("/a".toList, [("child_order".toList, .list [.str "b".toList])]), ("/a/b".toList, []), ("/a/c".toList, [])]
    keys (dropNodes nodes) = ["/a".toList, "/a/b".toList] ∧
    "/a/c".toList = slashed (["a".toList] ++ ["c".toList]) ∧
    keys (dropNodes (("/a".toList, []) :: nodes.tail)) = ["/a".toList, "/a/b".toList, "/a/c".toList] := by
  decide +kernel

/-- C63: only the node itself is dropped, what is below it stays in the file without its parent. -/
theorem C63_orphans :
    let nodes : Dict Str (Dict Str Val) :=
      [("/a".toList, [("comment".toList, .str ['x'])]),
       ("/a/b".toList, [("child_order".toList, .list [.str ['c']])]), ("/a/b/c".toList, [])]
    keys (dropNodes nodes) = ["/a".toList, "/a/b/c".toList] := by
  decide +kernel

end Nxt.Props
