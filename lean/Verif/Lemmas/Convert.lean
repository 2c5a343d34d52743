import Verif.Lemmas.Legacy115
import Verif.Model.Convert
/-!
# Lemmas on whole conversions
-/
namespace Nxt.Convert
open Dict Layer Legacy Spec

theorem wf_reorder (order : List Str) {d : Dict Str Val} (h : wf (.dict d)) : wf (.dict (reorder order d)) := by
  rw [wf_dict_iff] at h ⊢
  obtain ⟨h1, h2⟩ := reorder_spec order d h.1
  exact ⟨h1, fun k v hk => h.2 k v (by rw [← h2]; exact hk)⟩

mutual
theorem wf_deepVal (order : List Str) : (v : Val) → wf v → wf (deepVal order v)
  | .dict d, h => by
    rw [deepVal]
    refine wf_reorder order ?_
    rw [wf] at h ⊢
    exact ⟨by unfold Ok; rw [keys_deepPairs]; exact h.1, wfPairs_deep order d h.2⟩
  | .list l, h => by
    rw [deepVal, wf]
    exact wfList_deep order l (by rw [wf] at h; exact h)
  | .none, _ | .bool _, _ | .num _, _ | .str _, _ | .src _ _, _ | .other _ _ _, _ => by rw [deepVal]; simp [wf]
theorem wfPairs_deep (order : List Str) : (d : List (Str × Val)) → wfPairs d → wfPairs (deepPairs order d)
  | [], _ => by rw [deepPairs]; trivial
  | (k, v) :: r, h => by
    rw [wfPairs] at h
    rw [deepPairs, wfPairs]
    exact ⟨wf_deepVal order v h.1, wfPairs_deep order r h.2⟩
theorem wfList_deep (order : List Str) : (l : List Val) → wfList l → wfList (deepItems order l)
  | [], _ => by rw [deepItems]; trivial
  | .dict d :: r, h => by
    rw [wfList] at h
    rw [deepItems, wfList]
    refine ⟨wf_reorder order ?_, wfList_deep order r h.2⟩
    have h1 := h.1
    rw [wf] at h1 ⊢
    exact ⟨by unfold Ok; rw [keys_deepPairs]; exact h1.1, wfPairs_deep order d h1.2⟩
  | .none :: r, h | .bool _ :: r, h | .num _ :: r, h | .str _ :: r, h | .src _ _ :: r, h
  | .other _ _ _ :: r, h | .list _ :: r, h => by
    rw [wfList] at h
    rw [deepItems]
    · rw [wfList]; exact ⟨h.1, wfList_deep order r h.2⟩
    · intro d hd; cases hd
end

theorem wf_deepOrder (order : List Str) {d : Dict Str Val} (h : wf (.dict d)) : wf (.dict (deepOrder order d)) := by
  have := wf_deepVal order (.dict d) h
  rw [deepVal] at this
  exact this

theorem get_deepOrder (order : List Str) {d : Dict Str Val} (h : Ok d) (k : Str) :
    get? k (deepOrder order d) = (get? k d).map (deepVal order) := by
  unfold deepOrder
  rw [(reorder_spec _ _ (by unfold Ok; rw [keys_deepPairs]; exact h)).2 k, get?_deepPairs]

/-! ### Same value -/

theorem SameOpt.symm {a b : Option Val} (h : SameOpt a b) : SameOpt b a := fun p => (h p).symm

theorem SameOpt.trans {a b c : Option Val} (h : SameOpt a b) (h' : SameOpt b c) : SameOpt a c :=
  fun p => (h p).trans (h' p)

theorem sameOpt_none_left {b : Option Val} (h : SameOpt none b) : b = none := by
  have := h []
  cases b with
  | none => rfl
  | some v => simp [atPath] at this

theorem sameOpt_of_get {r : Dict Str Val} {k : Str} {v : Val} {b : Option Val} (h : SameOpt (get? k r) b)
    (hv : get? k r = some v) : ∃ w, b = some w ∧ SameJson v w := by
  cases b with
  | none =>
    rw [hv] at h
    cases sameOpt_none_left (SameOpt.symm h)
  | some w =>
    rw [hv] at h
    exact ⟨w, rfl, h⟩

theorem sameJson_dict_right {v : Val} {e : Dict Str Val} (h : SameJson v (.dict e)) :
    ∃ d, v = .dict d ∧ ∀ k, SameOpt (get? k d) (get? k e) := by
  obtain ⟨d, hd⟩ := sameOpt_dict_left (a := some v) (e := e) h
  cases hd
  exact ⟨d, rfl, sameJson_get h⟩

theorem dictOfDicts_same {v w : Val} (h : SameJson v w) (hw : DictOfDicts w) : DictOfDicts v := by
  cases w with
  | dict e =>
    obtain ⟨d, rfl, hd⟩ := sameJson_dict_right h
    intro k x hx
    obtain ⟨y, hy, hs⟩ := sameOpt_of_get (hd k) hx
    obtain ⟨f, rfl⟩ := hw k y hy
    obtain ⟨g, rfl, _⟩ := sameJson_dict_right hs
    exact ⟨g, rfl⟩
  | none | bool | num | str | list | src | other => exact hw.elim

/-- The expected shape is kept by conversions that keep the values. -/
theorem shape_same {r data : Dict Str Val} (hw : wf (.dict r)) (h : Shape115 data)
    (hm : SameOpt (get? "meta_data".toList r) (get? "meta_data".toList data))
    (ho : SameOpt (get? "comp_overrides".toList r) (get? "comp_overrides".toList data))
    (hn : ∀ v, get? "nodes".toList r = some v → ∃ ns ns', v = .dict ns' ∧ get? "nodes".toList data = some (.dict ns) ∧
      ∀ p, SameOpt (get? p ns') (if '/' ∈ p then get? p ns else none)) : Shape115 r := by
  refine ⟨hw, ?_, ?_, ?_⟩
  · intro v hv
    obtain ⟨ns, ns', rfl, hd, hp⟩ := hn v hv
    refine ⟨ns', rfl, fun p n hpn => ?_⟩
    obtain ⟨w, hw', hs⟩ := sameOpt_of_get (hp p) hpn
    split at hw'
    · obtain ⟨d, hd', hall⟩ := h.nodes _ hd
      cases hd'
      obtain ⟨nd, rfl, ha⟩ := hall p w hw'
      obtain ⟨nd', rfl, hk⟩ := sameJson_dict_right hs
      refine ⟨nd', rfl, fun a haa => ?_⟩
      obtain ⟨b, hb, hs'⟩ := sameOpt_of_get (hk _) haa
      exact dictOfDicts_same hs' (ha b hb)
    · cases hw'
  · intro v hv
    obtain ⟨w, hw', hs⟩ := sameOpt_of_get hm hv
    obtain ⟨d, rfl, hd⟩ := h.metaData w hw'
    obtain ⟨d', rfl, hk⟩ := sameJson_dict_right hs
    refine ⟨d', rfl, fun k hkm t ht => ?_⟩
    obtain ⟨u, hu, hs'⟩ := sameOpt_of_get (hk k) ht
    obtain ⟨e, rfl⟩ := hd k hkm u hu
    obtain ⟨e', rfl, _⟩ := sameJson_dict_right hs'
    exact ⟨e', rfl⟩
  · intro v hv
    obtain ⟨w, hw', hs⟩ := sameOpt_of_get ho hv
    obtain ⟨d, rfl⟩ := h.overs w hw'
    obtain ⟨d', rfl, _⟩ := sameJson_dict_right hs
    exact ⟨d', rfl⟩

/-- What the 1.14 converter gives has distinct keys at every level. -/
theorem wf_arrange {nodes : Dict Str Val} (hw : wf (.dict nodes))
    (hperm : (arrangeNodes nodes).Perm (nodes.filter (fun e => '/' ∈ e.1))) :
    wf (.dict (arrangeNodes nodes)) := by
  obtain ⟨hok, hall⟩ := (wf_dict_iff nodes).1 hw
  have hoka : Ok (nodes.filter (fun e => '/' ∈ e.1)) := (List.filter_sublist.map Prod.fst).nodup hok
  rw [wf_dict_iff]
  refine ⟨(hperm.map Prod.fst).nodup_iff.2 hoka, fun k v hk => ?_⟩
  have := (List.mem_filter.1 (hperm.mem_iff.1 (mem_of_get? hk))).1
  exact hall k v (get?_of_mem hok this)

theorem wf_convert114 {data r : Dict Str Val} (h : wf (.dict data))
    (hp : ∀ nodes : Dict Str Val, Ok nodes → (arrangeNodes nodes).Perm (nodes.filter (fun e => '/' ∈ e.1)))
    (hr : convert114 data = some r) : wf (.dict r) := by
  unfold convert114 at hr
  have h1 := wf_set h "version".toList (v := .str "1.15".toList) (by simp [wf])
  revert hr
  generalize Dict.set "version".toList (Val.str "1.15".toList) data = d1 at h1
  have h2 : wf (.dict (if isFalse (get? "mute".toList d1) then erase "mute".toList d1 else d1)) := by
    split
    · exact wf_erase h1 _
    · exact h1
  simp only []
  generalize (if isFalse (get? "mute".toList d1) then erase "mute".toList d1 else d1) = d2 at h2 ⊢
  have h3 : wf (.dict (if isFalse (get? "solo".toList d2) then erase "solo".toList d2 else d2)) := by
    split
    · exact wf_erase h2 _
    · exact h2
  generalize (if isFalse (get? "solo".toList d2) then erase "solo".toList d2 else d2) = d3 at h3 ⊢
  intro hr
  split at hr
  · rw [← Option.some.inj hr]; exact wf_deepOrder _ h3
  · rename_i nodes hg
    rw [← Option.some.inj hr]
    have hw := ((wf_dict_iff d3).1 h3).2 _ _ hg
    exact wf_deepOrder _ (wf_set h3 _ (wf_arrange hw (hp nodes ((wf_dict_iff nodes).1 hw).1)))
  · exact absurd hr (by simp)

end Nxt.Convert
