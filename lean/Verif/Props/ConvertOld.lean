import Verif.Props.Convert
/-!
# Property C136: files up to 1.9, end to end
-/
namespace Nxt.Props
open Dict Layer Legacy Spec Convert Converting

namespace Converting

theorem wf_get {d : Dict Str Val} (h : wf (.dict d)) {k : Str} {v : Val} (hv : get? k d = some v) : wf v :=
  ((wf_dict_iff d).1 h).2 k v hv

theorem wf_none : wf .none := by simp [wf]

theorem wf_getD {d : Dict Str Val} (h : wf (.dict d)) (k : Str) : wf ((get? k d).getD .none) := by
  cases hg : get? k d with
  | none => exact wf_none
  | some v => exact wf_get h hg

theorem wf_setUnlessNone {d : Dict Str Val} (h : wf (.dict d)) (k : Str) {v : Val} (hv : wf v) :
    wf (.dict (setUnlessNone k v d)) := by
  unfold setUnlessNone
  split
  · exact h
  · exact wf_set h k hv

/-- What is collected from references is well formed. -/
structure OutWf (s : RefOut) : Prop where
  aliases : wf (.dict s.aliases)
  colors : wf (.dict s.colors)
  ok : Ok s.overs
  overs : ∀ p o, get? p s.overs = some o → wf (.dict o)

theorem wf_nil : wf (.dict []) := (wf_dict_iff []).2 ⟨ok_nil, fun _ _ h => nomatch h⟩

theorem outWf_step {s : RefOut} (h : OutWf s) {r : RefIn} (hm : wf r.mute) (hs : wf r.solo) (ha : wf r.alias) (hc : wf r.color) :
    OutWf (refStep s r) := by
  unfold refStep
  split
  · exact h
  · have hr : wf (.dict ((get? r.path s.overs).getD [])) := by
      cases hg : get? r.path s.overs with
      | none => exact wf_nil
      | some o => exact h.overs _ o hg
    have hr2 := wf_setUnlessNone (wf_setUnlessNone hr "mute".toList hm) "solo".toList hs
    simp only
    generalize setUnlessNone "solo".toList r.solo (setUnlessNone "mute".toList r.mute ((get? r.path s.overs).getD [])) = x at hr2
    refine ⟨wf_setUnlessNone h.aliases _ ha, wf_setUnlessNone h.colors _ hc, ?_, ?_⟩
    · split
      · exact h.ok
      · exact ok_set h.ok _ _
    · intro p o ho
      split at ho
      · exact h.overs p o ho
      · rw [get?_set] at ho
        split at ho
        · cases ho; exact hr2
        · exact h.overs p o ho

theorem outWf_all {rs : List RefIn} {overs : Dict Str (Dict Str Val)} {aliases colors : Dict Str Val}
    (h0 : OutWf ⟨[], overs, aliases, colors⟩) (h : ∀ r ∈ rs, wf r.mute ∧ wf r.solo ∧ wf r.alias ∧ wf r.color) :
    OutWf (updateRefs rs overs aliases colors) := by
  unfold updateRefs
  generalize (⟨[], overs, aliases, colors⟩ : RefOut) = s at h0 ⊢
  induction rs generalizing s with
  | nil => exact h0
  | cons r rs ih =>
    obtain ⟨a, b, c, d⟩ := h r (by simp)
    exact ih (fun r' hr' => h r' (by simp [hr'])) _ (outWf_step h0 a b c d)

theorem collect_total {A B : Type} {f : A → Option B} {l : List A} (h : ∀ a ∈ l, (f a).isSome = true) :
    ∃ r, collect f l = some r ∧ ∀ b ∈ r, ∃ a ∈ l, f a = some b := by
  induction l with
  | nil => exact ⟨[], rfl, nofun⟩
  | cons a l ih =>
    obtain ⟨r, h1, h2⟩ := ih (fun b hb => h b (by simp [hb]))
    obtain ⟨b, hb⟩ := Option.isSome_iff_exists.1 (h a (by simp))
    refine ⟨b :: r, by rw [collect, hb, h1], fun c hc => ?_⟩
    rcases List.mem_cons.1 hc with rfl | hc
    · exact ⟨a, by simp, hb⟩
    · obtain ⟨a', m, e⟩ := h2 c hc
      exact ⟨a', by simp [m], e⟩

theorem wfList_mem {l : List Val} (h : wf (.list l)) : ∀ v ∈ l, wf v := by
  rw [wf] at h
  induction l with
  | nil => exact nofun
  | cons a l ih =>
    rw [wfList] at h
    intro v hv
    rcases List.mem_cons.1 hv with rfl | hv
    · exact h.1
    · exact ih h.2 v hv

theorem wfList_strs (ps : List Str) : wf (.list (ps.map Val.str)) := by
  rw [wf]
  induction ps with
  | nil => trivial
  | cons p ps ih => rw [List.map_cons, wfList]; exact ⟨by simp [wf], ih⟩

/-- The shape of the meta data and the overrides while references are updated. -/
structure Labelled (d : Dict Str Val) : Prop where
  wf : wf (.dict d)
  metaData : ∀ v, get? "meta_data".toList d = some v → ∃ m, v = .dict m ∧
    ∀ k ∈ metaTables109, ∀ t, get? k m = some t → ∃ e, t = .dict e
  overs : ∀ v, get? "comp_overrides".toList d = some v → ∃ e, v = .dict e

theorem labelled_store {out : RefOut} (ho : OutWf out) {m d : Dict Str Val} (hd : Labelled d)
    (hm : dictAt "meta_data".toList d = some m) : Labelled (storeRefs out m d) := by
  have rc : "comp_overrides".toList ≠ "references".toList := by decide +kernel
  have rm : "meta_data".toList ≠ "references".toList := by decide +kernel
  have cm : "meta_data".toList ≠ "comp_overrides".toList := by decide +kernel
  have hok := ((wf_dict_iff d).1 hd.wf).1
  have hwm : wf (.dict m) ∧ ∀ k ∈ metaTables109, ∀ t, get? k m = some t → ∃ e, t = .dict e := by
    unfold dictAt at hm
    split at hm
    · cases hm; exact ⟨wf_nil, fun _ _ _ h => nomatch h⟩
    · rename_i e he
      cases hm
      obtain ⟨m', h1, h2⟩ := hd.metaData _ he
      cases h1
      exact ⟨wf_get hd.wf he, h2⟩
    · cases hm
  have h0 : Labelled (erase "references".toList d) := by
    refine ⟨wf_erase hd.wf _, fun v hv => hd.metaData v ?_, fun v hv => hd.overs v ?_⟩
    · rw [get?_erase hok, if_neg rm] at hv; exact hv
    · rw [get?_erase hok, if_neg rc] at hv; exact hv
  unfold storeRefs
  simp only []
  split
  · exact h0
  · have h1 : Labelled (Dict.set "references".toList (Val.list (out.refs.map Val.str)) (erase "references".toList d)) := by
      refine ⟨wf_set h0.wf _ (wfList_strs _), fun v hv => h0.metaData v ?_, fun v hv => h0.overs v ?_⟩
      · rw [get?_set, if_neg rm] at hv; exact hv
      · rw [get?_set, if_neg rc] at hv; exact hv
    have h2 : Labelled (if out.overs.isEmpty then Dict.set "references".toList (Val.list (out.refs.map Val.str)) (erase "references".toList d)
        else Dict.set "comp_overrides".toList (.dict (out.overs.map (fun e => (e.1, Val.dict e.2))))
          (Dict.set "references".toList (Val.list (out.refs.map Val.str)) (erase "references".toList d))) := by
      split
      · exact h1
      · refine ⟨wf_set h1.wf _ ?_, fun v hv => h1.metaData v ?_, fun v hv => ?_⟩
        · rw [wf_dict_iff]
          refine ⟨?_, fun k v hv => ?_⟩
          · unfold Ok
            have : keys (out.overs.map (fun e => (e.1, Val.dict e.2))) = keys out.overs := by
              unfold keys; rw [List.map_map]; rfl
            rw [this]; exact ho.ok
          · rw [get?_mapDict, Option.map_eq_some_iff] at hv
            obtain ⟨o, h3, rfl⟩ := hv
            exact ho.overs k o h3
        · rw [get?_set, if_neg cm] at hv; exact hv
        · rw [get?_set, if_pos rfl] at hv; cases hv; exact ⟨_, rfl⟩
    generalize (if out.overs.isEmpty then Dict.set "references".toList (Val.list (out.refs.map Val.str)) (erase "references".toList d)
        else Dict.set "comp_overrides".toList (.dict (out.overs.map (fun e => (e.1, Val.dict e.2))))
          (Dict.set "references".toList (Val.list (out.refs.map Val.str)) (erase "references".toList d))) = d2 at h2 ⊢
    have step : ∀ (x : Str) (t : Dict Str Val), wf (.dict t) → ∀ n : Dict Str Val,
        (wf (.dict n) ∧ ∀ k ∈ metaTables109, ∀ t, get? k n = some t → ∃ e, t = .dict e) →
        let n' := if t.isEmpty then n else Dict.set x (.dict t) n
        wf (.dict n') ∧ ∀ k ∈ metaTables109, ∀ t, get? k n' = some t → ∃ e, t = .dict e := by
      intro x t ht n hn
      simp only []
      split
      · exact hn
      · refine ⟨wf_set hn.1 _ ht, fun k hk u hu => ?_⟩
        rw [get?_set] at hu
        split at hu
        · cases hu; exact ⟨_, rfl⟩
        · exact hn.2 k hk u hu
    have hm3 := step "colors".toList out.colors ho.colors _ (step "aliases".toList out.aliases ho.aliases m hwm)
    simp only [] at hm3
    generalize (if out.colors.isEmpty = true then (if out.aliases.isEmpty = true then m else
        Dict.set "aliases".toList (Val.dict out.aliases) m) else Dict.set "colors".toList (Val.dict out.colors)
        (if out.aliases.isEmpty = true then m else Dict.set "aliases".toList (Val.dict out.aliases) m)) = m3 at hm3 ⊢
    split
    · exact h2
    · refine ⟨wf_set h2.wf _ hm3.1, fun v hv => ?_, fun v hv => h2.overs v ?_⟩
      · rw [get?_set, if_pos rfl] at hv; cases hv; exact ⟨m3, rfl, hm3.2⟩
      · rw [get?_set, if_neg cm.symm] at hv; exact hv

/-- The references of a file of the right shape are updated. -/
theorem refs_total {d : Dict Str Val} (h : Shape109 d) : ∃ d1, updateRefsData d = some d1 ∧ Labelled d1 := by
  have hL : Labelled d := by
    refine ⟨h.wf, h.metaData, fun v hv => ?_⟩
    have := h.overs v hv
    cases v <;> simp only [DictOfDicts] at this
    exact ⟨_, rfl⟩
  unfold updateRefsData
  cases hr : get? "references".toList d with
  | none => exact ⟨d, rfl, hL⟩
  | some v =>
    obtain ⟨refs, rfl, hrefs⟩ := h.refs v hr
    cases refs with
    | nil => exact ⟨d, rfl, hL⟩
    | cons r0 refs0 =>
      simp only []
      have hwr := wfList_mem (wf_get h.wf hr)
      generalize r0 :: refs0 = refs at hrefs hwr
      -- the tables read
      obtain ⟨m, hm, hwm, htab⟩ : ∃ m, dictAt "meta_data".toList d = some m ∧ wf (.dict m) ∧
          ∀ k ∈ metaTables109, ∀ t, get? k m = some t → ∃ e, t = .dict e := by
        unfold dictAt
        cases hg : get? "meta_data".toList d with
        | none => exact ⟨[], rfl, wf_nil, fun _ _ _ h => nomatch h⟩
        | some v =>
          obtain ⟨m, rfl, hm⟩ := h.metaData v hg
          exact ⟨m, rfl, wf_get h.wf hg, hm⟩
      have tab : ∀ k ∈ metaTables109, ∃ t, dictAt k m = some t ∧ wf (.dict t) := by
        intro k hk
        unfold dictAt
        cases hg : get? k m with
        | none => exact ⟨[], rfl, wf_nil⟩
        | some v =>
          obtain ⟨e, rfl⟩ := htab k hk v hg
          exact ⟨e, rfl, wf_get hwm hg⟩
      obtain ⟨aliases, ha, hwa⟩ := tab "aliases".toList (by decide +kernel)
      obtain ⟨colors, hc, hwc⟩ := tab "colors".toList (by decide +kernel)
      obtain ⟨o, ho, hwo, hdo⟩ : ∃ o, dictAt "comp_overrides".toList d = some o ∧ wf (.dict o) ∧
          ∀ k v, get? k o = some v → ∃ e, v = .dict e := by
        unfold dictAt
        cases hg : get? "comp_overrides".toList d with
        | none => exact ⟨[], rfl, wf_nil, fun _ _ h => nomatch h⟩
        | some v =>
          have := h.overs v hg
          cases v <;> simp only [DictOfDicts] at this
          rename_i e
          exact ⟨e, rfl, wf_get h.wf hg, this⟩
      obtain ⟨hoo, hwoo⟩ := (wf_dict_iff o).1 hwo
      obtain ⟨overs, hov, -⟩ := collect_total (f := overOf) (l := o) (by
        rintro ⟨k, v⟩ hkv
        obtain ⟨e, rfl⟩ := hdo k v (get?_of_mem hoo hkv)
        rfl)
      have hkeys : ∀ (o : Dict Str Val) (overs : Dict Str (Dict Str Val)), collect overOf o = some overs → keys overs = keys o := by
        intro o
        induction o with
        | nil => intro overs h; cases h; rfl
        | cons en o ih =>
          intro overs h
          rw [collect] at h
          split at h
          · rename_i b r hb hr
            cases h
            obtain ⟨k, v⟩ := en
            cases v <;> simp only [overOf, reduceCtorEq] at hb
            cases hb
            simp only [keys, List.map_cons] at ih ⊢
            rw [ih r hr]
          · cases h
      obtain ⟨rs, hrs, hfrom⟩ := collect_total (f := refOf) (l := refs) (by
        intro r hr
        obtain ⟨e, rfl, hp⟩ := hrefs r hr
        unfold refOf
        simp only []
        cases hg : get? "path".toList e with
        | none => simp [Val.truthy]
        | some p =>
          rcases hp p hg with rfl | ⟨s, rfl⟩
          · simp [Val.truthy]
          · simp)
      have hout : OutWf (updateRefs rs overs aliases colors) := by
        refine outWf_all ⟨hwa, hwc, by unfold Ok; rw [hkeys o overs hov]; exact hoo, fun p x hx => ?_⟩ (fun b hb => ?_)
        · have := collect_overs hov p
          rw [hx] at this
          exact hwoo p _ this
        · obtain ⟨r, hr, hrb⟩ := hfrom b hb
          obtain ⟨e, rfl, -⟩ := hrefs r hr
          obtain ⟨f1, f2, f3, f4⟩ := refOf_fields hrb
          have hwe := hwr _ hr
          rw [f1, f2, f3, f4]
          exact ⟨wf_getD hwe _, wf_getD hwe _, wf_getD hwe _, wf_getD hwe _⟩
      refine ⟨_, ?_, labelled_store hout hL hm⟩
      rw [hm, ho, Option.bind_some, Option.bind_some, hov, Option.bind_some, ha, Option.bind_some, hc, Option.bind_some, hrs,
        Option.map_some]

theorem wf_moveEntry {m : Dict Str Val} (h : wf (.dict m)) (old new : Str) : wf (.dict (moveEntry old new m)) := by
  unfold moveEntry
  split
  · exact h
  · rename_i v hv
    split
    · exact wf_set (wf_erase h _) _ (wf_get h hv)
    · exact h

theorem dict_moveEntry {m : Dict Str Val} (hok : Ok m) {old : Str} (new : Str) {ks : List Str} (ho : old ∈ ks)
    (h : ∀ k ∈ ks, ∀ t, get? k m = some t → ∃ e, t = .dict e) :
    ∀ k ∈ ks, ∀ t, get? k (moveEntry old new m) = some t → ∃ e, t = .dict e := by
  intro k hk t ht
  unfold moveEntry at ht
  split at ht
  · exact h k hk t ht
  · rename_i v hv
    split at ht
    · rw [get?_set] at ht
      split at ht
      · cases ht; exact h old ho _ hv
      · rw [get?_erase hok] at ht
        split at ht
        · cases ht
        · exact h k hk t ht
    · exact h k hk t ht

theorem same_inside {a b : Option Val} (h : SameOpt a b) (k : Str) : SameOpt (inside a k) (inside b k) := by
  have key : ∀ c : Option Val, ∀ ss, (inside c k).bind (atPath ss) = c.bind (atPath (.key k :: ss)) := by
    intro c ss
    cases c with
    | none => rfl
    | some v => cases v <;> rfl
  intro ss
  rw [key, key]
  exact h _

theorem same_or {a b : Option Val} (h : a = b) : SameOpt a b := h ▸ sameOpt_refl a

/-- A file of the right shape is brought to 1.10, and has the shape the later converters rely on. -/
theorem convert109_total {d : Dict Str Val} (h : Shape109 d) : ∃ d1 r, updateRefsData d = some d1 ∧ convert109 d = some r ∧ Shape115 r ∧
    (get? "nodes".toList d = none → get? "nodes".toList r = none) ∧
    SameOpt (get? "comp_overrides".toList r) (get? "comp_overrides".toList d1) ∧
    ∀ x, x ∉ ["position_data", "positions", "collapse_data", "collapse"].map String.toList →
      ∀ p, SameOpt (labelAt r x p) (labelAt d1 x p) := by
  have nr : "nodes".toList ≠ "references".toList := by decide +kernel
  have nc : "nodes".toList ≠ "comp_overrides".toList := by decide +kernel
  have nm : "nodes".toList ≠ "meta_data".toList := by decide +kernel
  have cm : "comp_overrides".toList ≠ "meta_data".toList := by decide +kernel
  obtain ⟨d1, h1, L⟩ := refs_total h
  have R := refsDone h.wf h1
  -- the meta data
  obtain ⟨d2, h2, w2, get2, meta2, same2⟩ : ∃ d2, updateMeta d1 = some d2 ∧ wf (.dict d2) ∧
      (∀ k, k ≠ "meta_data".toList → get? k d2 = get? k d1) ∧
      (∀ v, get? "meta_data".toList d2 = some v → ∃ m, v = .dict m ∧
        ∀ k ∈ metaTables109, ∀ t, get? k m = some t → ∃ e, t = .dict e) ∧
      ∀ x, x ∉ ["position_data", "positions", "collapse_data", "collapse"].map String.toList →
        inside (get? "meta_data".toList d2) x = inside (get? "meta_data".toList d1) x := by
    unfold updateMeta
    cases hg : get? "meta_data".toList d1 with
    | none => exact ⟨d1, rfl, L.wf, fun _ _ => rfl, fun v hv => by (rw [hg] at hv; cases hv), fun x _ => by rw [hg]⟩
    | some v =>
      obtain ⟨m, rfl, hm⟩ := L.metaData v hg
      have wm := wf_get L.wf hg
      have okm := ((wf_dict_iff m).1 wm).1
      have hm1 := dict_moveEntry okm "positions".toList (by decide +kernel : "position_data".toList ∈ metaTables109) hm
      have okm1 := ok_moveEntry okm "position_data".toList "positions".toList
      refine ⟨_, rfl, wf_set L.wf _ (wf_moveEntry (wf_moveEntry wm _ _) _ _), fun k hk => by rw [get?_set, if_neg hk],
        fun v hv => ?_, fun x hx => ?_⟩
      · rw [get?_set, if_pos rfl] at hv
        cases hv
        exact ⟨_, rfl, dict_moveEntry okm1 "collapse".toList (by decide +kernel : "collapse_data".toList ∈ metaTables109) hm1⟩
      · simp only [List.map_cons, List.map_nil, List.mem_cons, List.not_mem_nil, or_false, not_or] at hx
        rw [get?_set, if_pos rfl]
        show get? x _ = get? x m
        rw [get_moveEntry okm1 _ _ _ hx.2.2.1 hx.2.2.2, get_moveEntry okm _ _ _ hx.1 hx.2.1]
  have hn2 : get? "nodes".toList d2 = get? "nodes".toList d := by rw [get2 _ nm, R.other _ nr nc nm]
  have shape2 : Shape115 d2 := by
    refine ⟨w2, fun v hv => h.nodes v (by rw [← hn2]; exact hv), fun v hv => ?_, fun v hv => ?_⟩
    · obtain ⟨m, rfl, hm⟩ := meta2 v hv
      refine ⟨m, rfl, fun k hk => hm k ?_⟩
      have : ∀ k ∈ metaTables115, k ∈ metaTables109 := by decide +kernel
      exact this k hk
    · rw [get2 _ cm] at hv
      exact L.overs v hv
  have ok2 := ((wf_dict_iff d2).1 w2).1
  -- the nodes
  obtain ⟨d3, h3, w3, get3, nodes3⟩ : ∃ d3, arrangeData d2 = some d3 ∧ wf (.dict d3) ∧
      (∀ k, k ≠ "nodes".toList → get? k d3 = get? k d2) ∧
      ∀ v, get? "nodes".toList d3 = some v → ∃ ns, get? "nodes".toList d2 = some (.dict ns) ∧ v = .dict (arrangeNodes ns) := by
    unfold arrangeData
    cases hg : get? "nodes".toList d2 with
    | none => exact ⟨d2, rfl, w2, fun _ _ => rfl, fun v hv => by rw [hg] at hv; cases hv⟩
    | some v =>
      obtain ⟨ns, rfl, -⟩ := shape2.nodes v hg
      have wn := wf_get w2 hg
      refine ⟨_, rfl, wf_set w2 _ (wf_arrange wn (C28_arrange_keeps ns ((wf_dict_iff ns).1 wn).1)),
        fun k hk => by rw [get?_set, if_neg hk], fun v hv => ?_⟩
      rw [get?_set, if_pos rfl] at hv
      cases hv
      exact ⟨ns, rfl, rfl⟩
  have ok3 := ((wf_dict_iff d3).1 w3).1
  have hget := fun k => get_deepOrder KEYS_V109 ok3 k
  have hconv : convert109 d = some (deepOrder KEYS_V109 d3) := by
    unfold convert109
    rw [h1, Option.bind_some, h2, Option.bind_some, h3, Option.map_some]
  have same : ∀ x : Option Val, (∀ v, x = some v → wf v) → SameOpt (x.map (deepVal KEYS_V109)) x := by
    intro x hx
    cases x with
    | none => exact sameOpt_refl _
    | some v => exact deepVal_same KEYS_V109 v (hx v rfl)
  have same3 : ∀ k, SameOpt (get? k (deepOrder KEYS_V109 d3)) (get? k d3) := fun k => by
    rw [hget]; exact same _ (fun v hv => wf_get w3 hv)
  refine ⟨d1, _, h1, hconv, ?_, fun hn => ?_, ?_, fun x hx p => ?_⟩
  · refine shape_same (wf_deepOrder _ w3) shape2 ?_ ?_ ?_
    · rw [← get3 _ nm.symm]; exact same3 _
    · rw [← get3 _ nc.symm]; exact same3 _
    · intro v hv
      rw [hget, Option.map_eq_some_iff] at hv
      obtain ⟨w, hw, rfl⟩ := hv
      obtain ⟨ns, hns, rfl⟩ := nodes3 w hw
      obtain ⟨-, -, -, -, hnodes⟩ := C136_before_110 d _ h.wf hconv
      obtain ⟨ns', e1, e2⟩ := hnodes ns (by rw [← hn2]; exact hns)
      rw [hget, hw, Option.map_some] at e1
      exact ⟨ns, ns', Option.some.inj e1, hns, e2⟩
  · cases hg : get? "nodes".toList (deepOrder KEYS_V109 d3) with
    | none => rfl
    | some v =>
      rw [hget, Option.map_eq_some_iff] at hg
      obtain ⟨w, hw, -⟩ := hg
      obtain ⟨ns, hns, -⟩ := nodes3 w hw
      rw [hn2, hn] at hns
      cases hns
  · have := same3 "comp_overrides".toList
    rwa [get3 _ nc.symm, get2 _ cm] at this
  · have hs := same3 "meta_data".toList
    rw [get3 _ nm.symm] at hs
    unfold labelAt
    rw [← same2 x hx]
    exact same_inside (same_inside hs x) p

theorem same_left_none {a b : Option Val} (h : SameOpt a b) (hb : b = none) : a = none := by
  subst hb
  exact sameOpt_none_left (SameOpt.symm h)

/-- An entry moved in one table has moved in a table with the same values. -/
theorem entryMoved_same {old new : Str} {m m1 m2 : Dict Str Val} (h : EntryMoved old new m m1)
    (hs : ∀ k, SameOpt (get? k m2) (get? k m1)) : EntryMoved old new m m2 := by
  refine ⟨fun v hv ht => ?_, fun hf => ?_⟩
  · obtain ⟨a, b⟩ := h.1 v hv ht
    exact ⟨SameOpt.trans (hs _) a, same_left_none (hs _) b⟩
  · obtain ⟨a, b⟩ := h.2 hf
    exact ⟨SameOpt.trans (hs _) a, SameOpt.trans (hs _) b⟩

end Converting

/-- C136: a file up to 1.9 in the expected shape is converted, and keeps its values under their new names. -/
theorem C136_old (pre : Dict Str Val → Option (Dict Str Val)) (d : Dict Str Val) (a b r : Str) (M m : Nat)
    (ha : Decimal a M) (hb : Decimal b m) (hr : r = [] ∨ ∃ t, r = '.' :: t)
    (hver : get? "version".toList d = some (.str (a ++ '.' :: (b ++ r)))) (hM : M ≠ 0) (hm : m ≤ 9) (hs : Shape109 d) :
    ∃ fuel0 d', (∀ fuel, fuel0 ≤ fuel → convertData pre fuel d = .ok d') ∧ OldFile d d' := by
  obtain ⟨fuel0, h⟩ := run pre d a b r M m ha hb hr hver hM (by omega)
  rw [if_pos hm] at h
  obtain ⟨d1, x, h1, hx, hsx, hnn, hov, hlab⟩ := convert109_total hs
  obtain ⟨z, hz, F⟩ := Converting.later hsx
  obtain ⟨k1, k2, k3, k4, k5⟩ := C136_before_110 d x hs.wf hx
  have ent : ∀ k, k ∉ ["version".toList, "nodes".toList, "mute".toList, "solo".toList] →
      SameOpt (get? k z) (get? k x) := F.entries
  have zov : SameOpt (get? "comp_overrides".toList z) (get? "comp_overrides".toList d1) :=
    SameOpt.trans (ent _ (by decide +kernel)) hov
  have zlab : ∀ t, t ∉ ["position_data", "positions", "collapse_data", "collapse"].map String.toList →
      ∀ p, SameOpt (labelAt z t p) (labelAt d1 t p) := fun t ht p =>
    SameOpt.trans (same_inside (same_inside (ent "meta_data".toList (by decide +kernel)) t) p) (hlab t ht p)
  have za := zlab "aliases".toList (by decide +kernel)
  have zc := zlab "colors".toList (by decide +kernel)
  refine ⟨fuel0, z, fun fuel hf => ?_, ?_⟩
  · rw [h fuel hf]
    have : applyAll [convert109, convert114, convert115] d = some z := by
      rw [applyAll, hx]; exact hz
    rw [this]
  refine ⟨F.version, fun k hk => ?_, fun k hk => ?_, fun hn => ?_, fun refs hrefs hne => ?_, fun refs hrefs hne p hp => ?_,
    fun hno => ?_, fun m hm => ?_, fun hn => F.noNodes (hnn hn), fun ns hns => ?_⟩
  · simp only [List.map_cons, List.map_nil, List.mem_cons, List.not_mem_nil, or_false, not_or] at hk
    obtain ⟨q1, q2, q3, q4, q5, q6, q7⟩ := hk
    refine SameOpt.trans (ent k ?_) (k1 k ?_) <;>
      simp only [List.mem_cons, List.not_mem_nil, or_false, not_or]
    · exact ⟨q1, q2, q3, q4⟩
    · exact ⟨q5, q6, q7, q2⟩
  · have hk1 : SameOpt (get? k x) (get? k d) := by
      refine k1 k ?_
      have : ∀ k ∈ ["mute".toList, "solo".toList],
        k ∉ ["references".toList, "comp_overrides".toList, "meta_data".toList, "nodes".toList] := by decide +kernel
      exact this k hk
    have isF : ∀ {a b : Option Val}, SameOpt a b → b = some (.bool false) → a = some (.bool false) := by
      intro a b hab hb
      subst hb
      have := hab []
      cases a with
      | none => cases this
      | some v => cases v <;> simp_all [atPath, shape]
    obtain ⟨f1, f2⟩ := F.flags k hk
    exact ⟨fun hf => f1 (isF hk1 hf), fun hf => SameOpt.trans (f2 (fun hc => hf (isF (SameOpt.symm hk1) hc))) hk1⟩
  · exact same_left_none (ent _ (by decide +kernel)) (k2 hn)
  · rw [← k3 refs hrefs hne]
    exact ent _ (by decide +kernel)
  · obtain ⟨l1, l2, l3⟩ := C136_labels d d1 hs.wf h1 refs hrefs hne p hp
    exact ⟨SameOpt.trans (za p) (same_or l1), SameOpt.trans (zc p) (same_or l2),
      fun k => SameOpt.trans (same_inside (same_inside zov p) k) (same_or (l3 k))⟩
  · have hd1 : get? "comp_overrides".toList d1 = get? "comp_overrides".toList d ∧
        get? "meta_data".toList d1 = get? "meta_data".toList d := by
      have hok := ((wf_dict_iff d).1 hs.wf).1
      unfold updateRefsData at h1
      cases hg : get? "references".toList d with
      | none => rw [hg] at h1; cases h1; exact ⟨rfl, rfl⟩
      | some v =>
        obtain ⟨refs, rfl, -⟩ := hs.refs v hg
        have hp := hno refs hg
        rw [hg] at h1
        cases refs with
        | nil => cases h1; exact ⟨rfl, rfl⟩
        | cons r0 refs0 =>
          simp only [Option.bind_eq_some_iff, Option.map_eq_some_iff] at h1
          generalize r0 :: refs0 = refs at *
          obtain ⟨m, hm, o, ho, overs, hov, aliases, hal, colors, hco, rs, hrs, rfl⟩ := h1
          have c1 := (C62_references rs overs aliases colors ['a'] (by simp)).1
          rw [collect_paths refs rs hrs, hp] at c1
          unfold storeRefs
          simp only [c1, List.isEmpty_nil, if_true]
          rw [get?_erase hok, get?_erase hok, if_neg (by decide +kernel), if_neg (by decide +kernel)]
          exact ⟨rfl, rfl⟩
    refine ⟨hd1.1 ▸ zov, fun p => ⟨?_, ?_⟩⟩
    · have := za p
      unfold labelAt at this ⊢
      rwa [hd1.2] at this
    · have := zc p
      unfold labelAt at this ⊢
      rwa [hd1.2] at this
  · obtain ⟨m1, g1, g2, g3, g4⟩ := k4 m hm
    have hmz := ent "meta_data".toList (by decide +kernel)
    rw [g1] at hmz
    obtain ⟨m2, hm2⟩ := sameOpt_dict_left hmz
    rw [hm2] at hmz
    have hk := fun k => sameJson_get hmz k
    exact ⟨m2, hm2, entryMoved_same g2 hk, entryMoved_same g3 hk, fun k hkn => SameOpt.trans (hk k) (g4 k hkn)⟩
  · obtain ⟨ns1, n1, n2⟩ := k5 ns hns
    obtain ⟨ns2, e1, e2, e3⟩ := F.nodes ns1 n1
    refine ⟨ns2, e1, fun p => ?_, fun p nd hsl hnd => ?_⟩
    · rw [e2 p]
      have := n2 p
      constructor
      · intro hn hsl
        rw [hn hsl, if_pos hsl] at this
        exact sameOpt_none_left this
      · intro hn hsl
        rw [if_pos hsl, hn hsl] at this
        exact same_left_none this rfl
    · have := n2 p
      rw [if_pos hsl, hnd] at this
      obtain ⟨nd1, hnd1⟩ := sameOpt_dict_left this
      rw [hnd1] at this
      obtain ⟨nd2, hnd2, q⟩ := e3 p nd1 hsl hnd1
      refine ⟨nd2, hnd2, fun k => SameOpt.trans (q k) ?_⟩
      split
      · exact sameJson_get this k
      · exact sameOpt_refl _

/-- C136: a file converted from a version up to 1.9 is left as it is by a further conversion. -/
theorem C136_old_again (pre : Dict Str Val → Option (Dict Str Val)) {d d' : Dict Str Val} (h : OldFile d d') :
    ∃ fuel0, ∀ fuel, fuel0 ≤ fuel → convertData pre fuel d' = .ok d' := by
  have h16 : Decimal "16".toList 16 :=
    Decimal.snoc ['1'] 1 '6' (by decide) (Decimal.one '1' (by decide))
  obtain ⟨fuel0, hf⟩ := run pre d' ['1'] "16".toList [] 1 16 (Decimal.one '1' (by decide)) h16 (.inl rfl)
    h.version (by decide) (by decide)
  refine ⟨fuel0, fun fuel hle => ?_⟩
  rw [hf fuel hle]
  rfl

/-- C136: a file of version 1.15 in the expected shape is converted, and keeps its values. -/
theorem C136_115 (pre : Dict Str Val → Option (Dict Str Val)) (d : Dict Str Val) (a r : Str) (M : Nat) (ha : Decimal a M)
    (hr : r = [] ∨ ∃ t, r = '.' :: t) (hver : get? "version".toList d = some (.str (a ++ '.' :: ("15".toList ++ r)))) (hM : M ≠ 0)
    (hs : Shape115 d) :
    ∃ fuel0 d', (∀ fuel, fuel0 ≤ fuel → convertData pre fuel d = .ok d') ∧ get? "version".toList d' = some (.str "1.16".toList) ∧
      (∀ k, k ≠ "version".toList → k ≠ "nodes".toList → SameOpt (get? k d') (get? k d)) ∧
      (∀ ns, get? "nodes".toList d = some (.dict ns) → ∃ ns', get? "nodes".toList d' = some (.dict ns') ∧
        (∀ p, get? p ns' = none ↔ get? p ns = none) ∧
        ∀ p nd, get? p ns = some (.dict nd) → ∃ nd', get? p ns' = some (.dict nd') ∧
          ∀ k, SameOpt (get? k nd') (if k ∈ nodeEntries115 then get? k nd else none)) ∧
      (get? "nodes".toList d = none → get? "nodes".toList d' = none) := by
  have h15 : Decimal "15".toList 15 := Decimal.snoc ['1'] 1 '5' (by decide) (Decimal.one '1' (by decide))
  obtain ⟨fuel0, h⟩ := run pre d a "15".toList r M 15 ha h15 hr hver hM (by decide)
  obtain ⟨z, h1, -, z1, z2, z3, z4⟩ := C29_conversion_keeps_data d hs
  refine ⟨fuel0, z, fun fuel hf => ?_, z1, z2, fun ns hns => ?_, z4⟩
  · rw [h fuel hf]
    simp only [applyAll, h1, Option.bind_some, show ¬ (15 ≤ 9) by decide, show ¬ (15 ≤ 14) by decide, if_false, if_true]
  · obtain ⟨ns', e1, -, e2, e3⟩ := z3 ns hns
    refine ⟨ns', e1, e2, fun p nd hp => ?_⟩
    obtain ⟨nd', q1, q2, q3⟩ := e3 p nd hp
    refine ⟨nd', q1, fun k => ?_⟩
    split
    · rename_i hk; exact q2 k hk
    · rename_i hk; rw [q3 k hk]; exact sameOpt_refl _

/-- A 1.8 file. -/
def conv108 : Dict Str Val :=
  [("version".toList, .str "1.8".toList), ("solo".toList, .bool false),
   ("references".toList, .list [.dict [("path".toList, .str ['r']), ("mute".toList, .bool true), ("alias".toList, .str ['q'])],
     .dict []]),
   ("meta_data".toList, .dict [("position_data".toList, .dict [(['p'], .num 1)]), ("collapse_data".toList, .dict [])]),
   ("nodes".toList, .dict [("/a".toList, .dict [("code".toList, .list [.str ['c']]), ("odd".toList, .num 1)]),
     ("lost".toList, .dict [])])]

/-- A case of `C136_old`: the shape and the outcome. -/
theorem Converting.shape108 : Shape109 conv108 := by
  refine ⟨?_, ?_, ?_, ?_, ?_⟩
  · simp only [conv108, wf, wfPairs, wfList, and_true, true_and]
    decide +kernel
  · intro v hv
    have : v = .dict [("/a".toList, .dict [("code".toList, .list [.str ['c']]), ("odd".toList, .num 1)]),
      ("lost".toList, .dict [])] := (Option.some.inj hv).symm
    subst this
    refine ⟨_, rfl, fun p n hp => ?_⟩
    rcases List.mem_cons.1 (mem_of_get? hp) with h | h
    · cases h
      exact ⟨_, rfl, fun a ha => nomatch (show (none : Option Val) = some a from ha)⟩
    · cases List.mem_singleton.1 h
      exact ⟨_, rfl, fun a ha => nomatch (show (none : Option Val) = some a from ha)⟩
  · intro v hv
    have : v = .dict [("position_data".toList, .dict [(['p'], .num 1)]), ("collapse_data".toList, .dict [])] :=
      (Option.some.inj hv).symm
    subst this
    refine ⟨_, rfl, fun k _ t ht => ?_⟩
    rcases List.mem_cons.1 (mem_of_get? ht) with h | h
    · cases h; exact ⟨_, rfl⟩
    · cases List.mem_singleton.1 h; exact ⟨_, rfl⟩
  · intro v hv; exact nomatch (show (none : Option Val) = some v from hv)
  · intro v hv
    have : v = .list [.dict [("path".toList, .str ['r']), ("mute".toList, .bool true), ("alias".toList, .str ['q'])], .dict []] :=
      (Option.some.inj hv).symm
    subst this
    refine ⟨_, rfl, fun r hr => ?_⟩
    rcases List.mem_cons.1 hr with rfl | hr
    · exact ⟨_, rfl, fun p hp => .inr ⟨['r'], (Option.some.inj hp).symm⟩⟩
    · cases List.mem_singleton.1 hr
      exact ⟨_, rfl, fun p hp => nomatch (show (none : Option Val) = some p from hp)⟩

example (pre : Dict Str Val → Option (Dict Str Val)) : ∃ fuel0 d', (∀ fuel, fuel0 ≤ fuel → convertData pre fuel conv108 = .ok d') ∧
    OldFile conv108 d' :=
  C136_old pre conv108 ['1'] ['8'] [] 1 8 (Decimal.one '1' (by decide)) (Decimal.one '8' (by decide)) (.inl rfl) rfl
    (by decide) (by decide) Converting.shape108

end Nxt.Props
