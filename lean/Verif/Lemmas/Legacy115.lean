import Verif.Lemmas.LegacyData
/-!
# Lemmas on the 1.15 to 1.16 conversion
-/
namespace Nxt.Legacy
open Dict Layer Spec

theorem leftoverLoop_get {V : Type} (data : Dict Str V) (left : List Str) (res : Dict Str V)
    (hl : ∀ k ∈ left, k ∈ keys data) (hres : Ok res) :
    Ok (leftoverLoop data left res) ∧
    ∀ k, get? k (leftoverLoop data left res) = if k ∈ left then get? k data else get? k res := by
  induction left generalizing res with
  | nil => exact ⟨hres, fun k => by simp [leftoverLoop]⟩
  | cons x left ih =>
    rw [leftoverLoop]
    obtain ⟨v, hv⟩ := Option.isSome_iff_exists.1 (get?_isSome.2 (hl x (by simp)))
    rw [hv]
    simp only
    obtain ⟨h1, h2⟩ := ih (Dict.set x v res) (fun k hk => hl k (by simp [hk])) (ok_set hres x v)
    refine ⟨h1, fun k => ?_⟩
    rw [h2 k, get?_set]
    by_cases hk : k ∈ left
    · simp [hk]
    · by_cases hx : k = x
      · subst hx; simp [hk, hv]
      · simp [hk, hx]

theorem orderConv_spec (f : Str → Val → Option Val) (data : Dict Str Val) (hd : Ok data)
    (ks done : List Str) (res : Dict Str Val) (hn : (done ++ ks).Nodup) (hres : Ok res)
    (hf : ∀ k ∈ ks, ∀ v, get? k data = some v → (f k v).isSome)
    (hk : ∀ k, get? k res = if k ∈ done then (get? k data).bind (f k) else none) :
    ∃ res', orderConv f data ks res ((keys data).filter (fun k => k ∉ done))
        = some (res', (keys data).filter (fun k => k ∉ done ++ ks)) ∧ Ok res' ∧
      ∀ k, get? k res' = if k ∈ done ++ ks then (get? k data).bind (f k) else none := by
  induction ks generalizing done res with
  | nil => exact ⟨res, by simp [orderConv], hres, by simpa using hk⟩
  | cons x ks ih =>
    have hx : x ∉ done := by
      intro h
      exact (List.nodup_append.1 hn).2.2 x h x (by simp) rfl
    have e : done ++ x :: ks = (done ++ [x]) ++ ks := by simp
    rw [orderConv]
    by_cases hm : x ∈ keys data
    · rw [if_pos (by rw [List.mem_filter]; exact ⟨hm, by simpa using hx⟩)]
      obtain ⟨v, hv⟩ := Option.isSome_iff_exists.1 (get?_isSome.2 hm)
      obtain ⟨w, hw⟩ := Option.isSome_iff_exists.1 (hf x (by simp) v hv)
      rw [hv, Option.bind_some, hw]
      simp only
      have hl : ((keys data).filter (fun k => k ∉ done)).erase x = (keys data).filter (fun k => k ∉ done ++ [x]) := by
        rw [List.Nodup.erase_eq_filter (nodup_filter _ hd), List.filter_filter]
        apply List.filter_congr
        intro k _
        by_cases h1 : k ∈ done <;> by_cases h2 : k = x <;> simp [h1, h2]
      rw [hl, e]
      refine ih (done ++ [x]) _ (by rw [← e]; exact hn) (ok_set hres x w)
        (fun k hk => hf k (by simp [hk])) ?_
      intro k
      rw [get?_set]
      by_cases hkx : k = x
      · subst hkx; rw [if_pos rfl, if_pos (by simp), hv]; exact hw.symm
      · rw [if_neg hkx, hk k]
        by_cases h1 : k ∈ done <;> simp [h1, hkx]
    · rw [if_neg (by rw [List.mem_filter]; exact fun h => hm h.1)]
      have hl : (keys data).filter (fun k => k ∉ done) = (keys data).filter (fun k => k ∉ done ++ [x]) := by
        apply List.filter_congr
        intro k hk
        have : k ≠ x := fun h => hm (h ▸ hk)
        simp [this]
      rw [hl, e]
      refine ih (done ++ [x]) res (by rw [← e]; exact hn) hres (fun k hk => hf k (by simp [hk])) ?_
      intro k
      rw [hk k]
      by_cases h1 : k ∈ done
      · simp [h1]
      · by_cases hkx : k = x
        · subst hkx; rw [if_neg h1, if_pos (by simp), get?_eq_none.2 hm]; rfl
        · simp [h1, hkx]

theorem orderConv_all (f : Str → Val → Option Val) (data : Dict Str Val) (hd : Ok data)
    (order : List Str) (hn : order.Nodup) (hf : ∀ k ∈ order, ∀ v, get? k data = some v → (f k v).isSome) :
    ∃ res, orderConv f data order [] (keys data) = some (res, (keys data).filter (fun k => k ∉ order)) ∧ Ok res ∧
      ∀ k, get? k res = if k ∈ order then (get? k data).bind (f k) else none := by
  have ft : (keys data).filter (fun k => k ∉ ([] : List Str)) = keys data :=
    List.filter_eq_self.2 (by simp)
  have := orderConv_spec f data hd order [] [] (by simpa using hn) ok_nil hf (by intro k; rfl)
  rw [ft] at this
  simpa using this

theorem orderAll_spec (f : Str → Val → Option Val) (data : Dict Str Val) (hd : Ok data)
    (order : List Str) (hn : order.Nodup) (hf : ∀ k ∈ order, ∀ v, get? k data = some v → (f k v).isSome) :
    ∃ r, orderAll f order data = some r ∧ Ok r ∧
      ∀ k, get? k r = if k ∈ order then (get? k data).bind (f k) else get? k data := by
  obtain ⟨res, h1, h2, h3⟩ := orderConv_all f data hd order hn hf
  obtain ⟨g1, g2⟩ := leftoverLoop_get data ((keys data).filter (fun k => k ∉ order)) res
    (fun k hk => (List.mem_filter.1 hk).1) h2
  refine ⟨_, by unfold orderAll; rw [h1], g1, fun k => ?_⟩
  rw [g2 k, h3 k]
  by_cases hk : k ∈ order
  · simp [hk]
  · by_cases hm : k ∈ keys data
    · simp [hk, hm]
    · simp [hk, hm, get?_eq_none.2 hm]

theorem mapVals_spec (f : Val → Option Val) (d : List (Str × Val))
    (hf : ∀ k v, (k, v) ∈ d → (f v).isSome) :
    ∃ r, mapVals f d = some r ∧ keys r = keys d ∧ ∀ k, get? k r = (get? k d).bind f := by
  induction d with
  | nil => exact ⟨[], rfl, rfl, fun _ => rfl⟩
  | cons e d ih =>
    obtain ⟨x, v⟩ := e
    obtain ⟨w, hw⟩ := Option.isSome_iff_exists.1 (hf x v (by simp))
    obtain ⟨r, h1, h2, h3⟩ := ih (fun k v h => hf k v (by simp [h]))
    refine ⟨(x, w) :: r, by rw [mapVals, hw, h1], ?_, ?_⟩
    · unfold keys at h2 ⊢; rw [List.map_cons, List.map_cons, h2]
    · intro k
      rw [get?, get?]
      split
      · exact hw.symm
      · exact h3 k

theorem get?_sorted {d : Dict Str Val} (hd : Ok d) (k : Str) : get? k (sortByKey d) = get? k d :=
  get?_perm (((sortByKey_perm d).map Prod.fst).nodup_iff.2 hd) (sortByKey_perm d) k

theorem sameOpt_refl (a : Option Val) : SameOpt a a := fun _ => rfl

theorem sameOpt_dict {d e : Dict Str Val} (h : ∀ k, SameOpt (get? k d) (get? k e)) :
    SameOpt (some (.dict d)) (some (.dict e)) := by
  intro path
  simp only [Option.bind_some]
  cases path with
  | nil => rfl
  | cons s ss =>
    rw [atPath, atPath]
    cases s with
    | key k => exact h k ss
    | idx i => rfl

theorem sortDict_spec {v : Val} (hw : wf v) (hv : ∃ e, v = .dict e) :
    ∃ w, sortDict v = some w ∧ SameOpt (some w) (some v) := by
  obtain ⟨e, rfl⟩ := hv
  refine ⟨_, rfl, sameOpt_dict (fun k => ?_)⟩
  rw [wf] at hw
  rw [get?_sorted hw.1]
  exact sameOpt_refl _

theorem mapSorted_spec (f : Val → Option Val) (d : Dict Str Val) (hd : Ok d)
    (hf : ∀ k v, get? k d = some v → (f v).isSome) :
    ∃ r, mapVals f (sortByKey d) = some r ∧ Ok r ∧ ∀ k, get? k r = (get? k d).bind f := by
  have hs : Ok (sortByKey d) := ((sortByKey_perm d).map Prod.fst).nodup_iff.2 hd
  obtain ⟨r, h1, h2, h3⟩ := mapVals_spec f (sortByKey d) (fun k v h =>
    hf k v (by rw [← get?_sorted hd]; exact get?_of_mem hs h))
  refine ⟨r, h1, by unfold Ok; rw [h2]; exact hs, fun k => ?_⟩
  rw [h3 k, get?_sorted hd]

theorem orderAttrs_spec {v : Val} (hw : wf v) (hv : DictOfDicts v) :
    ∃ w, orderAttrs v = some w ∧ SameOpt (some w) (some v) := by
  cases v with
  | none | bool | num | str | list | src | other => exact hv.elim
  | dict d =>
    rw [wf] at hw
    have hv' : ∀ k v, get? k d = some v → ∃ e, v = .dict e := hv
    obtain ⟨r, h1, h2, h3⟩ := mapSorted_spec sortDict d hw.1 (fun k v h => by
      obtain ⟨w, hw', _⟩ := sortDict_spec (wfPairs_mem hw.2 h) (hv' k v h)
      rw [hw']; rfl)
    refine ⟨.dict r, by rw [orderAttrs, h1]; rfl, sameOpt_dict (fun k => ?_)⟩
    rw [h3 k]
    cases hg : get? k d with
    | none => exact sameOpt_refl _
    | some x =>
      obtain ⟨w, hw', hs⟩ := sortDict_spec (wfPairs_mem hw.2 hg) (hv' k x hg)
      rw [Option.bind_some, hw']
      exact hs

theorem mem_nodeKeys (k : Str) : k ∈ NODE_KEYS ↔ k ∈ nodeEntries115 :=
  List.Perm.mem_iff (by decide +kernel)

theorem mem_metaKeys (k : Str) : k ∈ META_KEYS ↔ k ∈ metaTables115 :=
  List.Perm.mem_iff (by decide +kernel)

theorem NODE_KEYS_nodup : NODE_KEYS.Nodup := by decide +kernel

theorem orderNodeData_spec {nd : Dict Str Val} (hw : wf (.dict nd))
    (ha : ∀ a, get? "attrs".toList nd = some a → DictOfDicts a) :
    ∃ nd', orderNodeData (.dict nd) = some (.dict nd') ∧ Ok nd' ∧
      (∀ k ∈ nodeEntries115, SameOpt (get? k nd') (get? k nd)) ∧ (∀ k, k ∉ nodeEntries115 → get? k nd' = none) := by
  simp only [← mem_nodeKeys]
  rw [wf] at hw
  obtain ⟨res, h1, h2, h3⟩ := orderConv_all nodeKey nd hw.1 NODE_KEYS NODE_KEYS_nodup (by
    intro k hk v hv
    unfold nodeKey
    split
    · rename_i he
      subst he
      obtain ⟨w, hw', _⟩ := orderAttrs_spec (wfPairs_mem hw.2 hv) (ha v hv)
      rw [hw']; rfl
    · rfl)
  refine ⟨res, by rw [orderNodeData, h1]; rfl, h2, ?_, ?_⟩
  · intro k hk
    rw [h3 k, if_pos hk]
    cases hg : get? k nd with
    | none => exact sameOpt_refl _
    | some v =>
      rw [Option.bind_some]
      unfold nodeKey
      split
      · rename_i he
        subst he
        obtain ⟨w, hw', hs⟩ := orderAttrs_spec (wfPairs_mem hw.2 hg) (ha v hg)
        rw [hw']; exact hs
      · exact sameOpt_refl _
  · intro k hk
    rw [h3 k, if_neg hk]

/-! ### 1.14 -/

theorem wfPairs_iff (d : List (Str × Val)) : wfPairs d ↔ ∀ e ∈ d, wf e.2 := by
  induction d with
  | nil => simp [wfPairs]
  | cons e d ih =>
    obtain ⟨k, v⟩ := e
    rw [wfPairs, ih]
    simp

theorem wf_dict_iff (d : Dict Str Val) : wf (.dict d) ↔ Ok d ∧ ∀ k v, get? k d = some v → wf v := by
  rw [wf]
  constructor
  · rintro ⟨h1, h2⟩; exact ⟨h1, fun k v h => wfPairs_mem h2 h⟩
  · rintro ⟨h1, h2⟩
    exact ⟨h1, (wfPairs_iff d).2 (fun e he => h2 e.1 e.2 (get?_of_mem h1 he))⟩

theorem wf_set {d : Dict Str Val} (h : wf (.dict d)) (k : Str) {v : Val} (hv : wf v) :
    wf (.dict (Dict.set k v d)) := by
  rw [wf_dict_iff] at h ⊢
  refine ⟨ok_set h.1 k v, fun x w hx => ?_⟩
  rw [get?_set] at hx
  split at hx
  · cases hx; exact hv
  · exact h.2 x w hx

theorem wf_erase {d : Dict Str Val} (h : wf (.dict d)) (k : Str) : wf (.dict (erase k d)) := by
  rw [wf_dict_iff] at h ⊢
  refine ⟨ok_erase h.1 k, fun x w hx => ?_⟩
  rw [get?_erase h.1] at hx
  split at hx
  · cases hx
  · exact h.2 x w hx

theorem sameJson_get {d e : Dict Str Val} (h : SameJson (.dict d) (.dict e)) (k : Str) :
    SameOpt (get? k d) (get? k e) := fun ss => h (.key k :: ss)

theorem sameOpt_some {a b : Val} (h : SameJson a b) : SameOpt (some a) (some b) := h

theorem sameOpt_dict_left {a : Option Val} {e : Dict Str Val} (h : SameOpt a (some (.dict e))) :
    ∃ d, a = some (.dict d) := by
  have := h []
  cases a with
  | none => cases this
  | some v =>
    simp only [Option.bind_some, atPath, Option.map_some, Option.some.injEq] at this
    cases v <;> first | exact ⟨_, rfl⟩ | (simp [shape] at this)

theorem popFalse_get {d : Dict Str Val} (h : wf (.dict d)) (x : Str) :
    let d' := if isFalse (get? x d) then erase x d else d
    wf (.dict d') ∧ (∀ k, k ≠ x → get? k d' = get? k d) ∧
    (get? x d = some (.bool false) → get? x d' = none) ∧
    (get? x d ≠ some (.bool false) → get? x d' = get? x d) := by
  have hok := ((wf_dict_iff d).1 h).1
  by_cases hf : isFalse (get? x d) = true
  · simp only [hf, if_true]
    have hv : get? x d = some (.bool false) := by
      unfold isFalse at hf
      split at hf
      · assumption
      · cases hf
    refine ⟨wf_erase h x, fun k hk => by rw [get?_erase hok, if_neg hk], fun _ => by
      rw [get?_erase hok, if_pos rfl], fun hne => absurd hv hne⟩
  · simp only [hf]
    refine ⟨h, fun _ _ => rfl, fun hv => ?_, fun _ => rfl⟩
    rw [hv] at hf
    exact absurd rfl hf

/-! ### Pre-release entries -/

theorem get?_entry (k k' : Str) (v : Val) (d : Dict Str Val) :
    get? k (entry k' v d) = if k = k' then (if hasOpinion v then some v else get? k d) else get? k d := by
  unfold entry
  split
  · rename_i h
    rw [get?_set]
  · rename_i h
    simp

/-! ### References -/

theorem snocInduct {α : Type} {P : List α → Prop} (nil : P []) (snoc : ∀ l a, P l → P (l ++ [a])) (l : List α) :
    P l := by
  have : ∀ n (l : List α), l.length = n → P l := by
    intro n
    induction n with
    | zero => intro l h; rw [List.length_eq_zero_iff.1 h]; exact nil
    | succ n ih =>
      intro l h
      rcases Path.eq_nil_or_snoc l with rfl | ⟨m, x, rfl⟩
      · exact nil
      · exact snoc m x (ih m (by simpa using h))
  exact this _ l rfl

theorem get?_setUnlessNone (p q : Str) (v : Val) (d : Dict Str Val) :
    get? p (setUnlessNone q v d) = if p = q ∧ notNone v = true then some v else get? p d := by
  cases v <;> simp [setUnlessNone, notNone, get?_set]

theorem lastGiven_snoc (f : RefIn → Val) (p : Str) (refs : List RefIn) (r : RefIn) :
    lastGiven f p (refs ++ [r])
      = if p = r.path ∧ notNone (f r) = true then some (f r) else lastGiven f p refs := by
  unfold lastGiven
  rw [List.filter_append, List.map_append, List.filter_append, List.getLast?_append]
  by_cases h1 : p = r.path
  · by_cases h2 : notNone (f r) = true
    · simp [h1, h2]
    · simp [h1, h2]
  · have h1' : ¬ r.path = p := fun h => h1 h.symm
    simp [h1, h1']

theorem join_slashed (ns : List Str) : Py.join ['/'] ([] :: ns) = slashed ns := by
  have aux : ∀ (n : Str) (ns : List Str), Py.join ['/'] (n :: ns) = n ++ slashed ns := by
    intro n ns
    induction ns generalizing n with
    | nil => simp [Py.join, slashed]
    | cons m ns ih => rw [Py.join, ih, slashed]; simp; simp
  rw [aux]; rfl

end Nxt.Legacy
