import Verif.Lemmas.Convert
import Verif.Lemmas.Disk
import Verif.Spec.Convert
import Verif.Props.Legacy
import Verif.Props.Version
/-!
# Properties of whole conversions: C136
-/
namespace Nxt.Props
open Dict Layer Legacy Spec Convert

namespace Converting

theorem table_sorted : (table.map Prod.fst).Pairwise (· < ·) := by
  simp [table]

theorem table_below : ∀ e ∈ table, e.1 ≤ Version.GRAPH_MINOR := by
  simp [table, Version.GRAPH_MINOR]

theorem filter_table (m : Nat) (hm : m ≤ 17) :
    (table.filter (fun e => (m : Int) ≤ e.1)).map Prod.snd =
      if m ≤ 9 then [convert109, convert114, convert115]
      else if m ≤ 14 then [convert114, convert115]
      else if m = 15 then [convert115] else [] := by
  have e : ∀ a b : Nat, decide ((a : Int) ≤ (b : Nat)) = decide (a ≤ b) := by
    intro a b; simp
  unfold table
  simp only [List.filter]
  rw [show ((9 : Int)) = ((9 : Nat) : Int) from rfl, show ((14 : Int)) = ((14 : Nat) : Int) from rfl,
    show ((15 : Int)) = ((15 : Nat) : Int) from rfl, e, e, e]
  by_cases h9 : m ≤ 9
  · rw [decide_eq_true h9, decide_eq_true (by omega : m ≤ 14), decide_eq_true (by omega : m ≤ 15), if_pos h9]; rfl
  · rw [decide_eq_false h9, if_neg h9]
    by_cases h14 : m ≤ 14
    · rw [decide_eq_true h14, decide_eq_true (by omega : m ≤ 15), if_pos h14]; rfl
    · rw [decide_eq_false h14, if_neg h14]
      by_cases h15 : m = 15
      · rw [decide_eq_true (by omega : m ≤ 15), if_pos h15]; rfl
      · rw [decide_eq_false (by omega : ¬ m ≤ 15), if_neg h15]; rfl

theorem versionOf_text {d : Dict Str Val} {s : Str} (h : get? "version".toList d = some (.str s)) :
    versionOf d = some s := by
  unfold versionOf
  rw [h]

/-- A file of a given version, run through its converters. -/
theorem run (pre : Dict Str Val → Option (Dict Str Val)) (d : Dict Str Val) (a b r : Str) (M m : Nat)
    (ha : Decimal a M) (hb : Decimal b m) (hr : r = [] ∨ ∃ t, r = '.' :: t)
    (hver : get? "version".toList d = some (.str (a ++ '.' :: (b ++ r)))) (hM : M ≠ 0) (hm : m ≤ 17) :
    ∃ fuel0, ∀ fuel, fuel0 ≤ fuel → convertData pre fuel d =
      match applyAll (if m ≤ 9 then [convert109, convert114, convert115]
        else if m ≤ 14 then [convert114, convert115]
        else if m = 15 then [convert115] else []) d with
      | some d' => .ok d'
      | none => .fail := by
  obtain ⟨fuel0, h⟩ := C27_convert_release versionOf pre table table_sorted table_below d a b r M m ha hb hr
    (versionOf_text hver) hM (by unfold Version.GRAPH_MINOR; omega)
  refine ⟨fuel0, fun fuel hf => ?_⟩
  rw [filter_table m hm] at h
  unfold convertData
  rw [h fuel hf]
  generalize applyAll _ d = x
  cases x <;> rfl

end Converting
open Converting

/-- C136: which converters a file of version `M.m` goes through. -/
theorem C136_steps (pre : Dict Str Val → Option (Dict Str Val)) (d : Dict Str Val) (a b r : Str) (M m : Nat)
    (ha : Decimal a M) (hb : Decimal b m) (hr : r = [] ∨ ∃ t, r = '.' :: t)
    (hver : get? "version".toList d = some (.str (a ++ '.' :: (b ++ r)))) (hM : M ≠ 0) (hm : m ≤ 17) :
    ∃ fuel0, ∀ fuel, fuel0 ≤ fuel → ∀ d', convertData pre fuel d = .ok d' ↔
      (m ≤ 9 → ∃ x y, convert109 d = some x ∧ convert114 x = some y ∧ convert115 y = some d') ∧
      (9 < m ∧ m ≤ 14 → ∃ y, convert114 d = some y ∧ convert115 y = some d') ∧
      (m = 15 → convert115 d = some d') ∧ (15 < m → d' = d) := by
  obtain ⟨fuel0, h⟩ := run pre d a b r M m ha hb hr hver hM hm
  refine ⟨fuel0, fun fuel hf d' => ?_⟩
  rw [h fuel hf]
  have hres : ∀ x : Option (Dict Str Val), (match x with
      | some d' => Version.Res.ok d'
      | none => .fail) = .ok d' ↔ x = some d' := by
    intro x; cases x <;> simp
  rw [hres]
  split
  · have e1 : ¬ (9 < m ∧ m ≤ 14) := by omega
    have e2 : ¬ m = 15 := by omega
    have e3 : ¬ 15 < m := by omega
    rename_i hm9
    simp only [hm9, e1, e2, e3, applyAll, Option.bind_eq_some_iff, Option.some.injEq, false_implies,
      and_true, true_implies]
    exact ⟨fun ⟨x, h1, y, h2, z, h3, h4⟩ => ⟨x, y, h1, h2, h4 ▸ h3⟩, fun ⟨x, y, h1, h2, h3⟩ => ⟨x, h1, y, h2, d', h3, rfl⟩⟩
  · split
    · have e1 : ¬ m ≤ 9 := by assumption
      have e2 : ¬ m = 15 := by omega
      have e3 : ¬ 15 < m := by omega
      have e4 : 9 < m ∧ m ≤ 14 := by omega
      simp only [e1, e2, e3, e4, applyAll, Option.bind_eq_some_iff, Option.some.injEq, false_implies,
        and_true, true_implies, true_and]
      exact ⟨fun ⟨y, h2, z, h3, h4⟩ => ⟨y, h2, h4 ▸ h3⟩, fun ⟨y, h2, h3⟩ => ⟨y, h2, d', h3, rfl⟩⟩
    · have e1 : ¬ m ≤ 9 := by assumption
      have e4 : ¬ (9 < m ∧ m ≤ 14) := by omega
      split
      · have e3 : ¬ 15 < m := by omega
        rename_i hm15
        simp only [e1, hm15, e3, e4, applyAll, Option.bind_eq_some_iff, Option.some.injEq, false_implies,
          and_true, true_implies, true_and]
        simp only [exists_eq_right, show ¬ (15 ≤ 9) by decide, show ¬ (9 < 15 ∧ 15 ≤ 14) by decide, show ¬ (15 < 15) by decide,
          false_implies, true_and, and_true]
      · have e3 : 15 < m := by omega
        rename_i hm15
        simp only [e1, hm15, e3, e4, applyAll, Option.some.injEq, false_implies,
          and_true, true_implies, true_and]
        exact eq_comm

/-- The converters of 1.10 to 1.15 on a file in the expected shape. -/
theorem Converting.later {d : Dict Str Val} (hs : Shape115 d) :
    ∃ z, applyAll [convert114, convert115] d = some z ∧ SameFile d z := by
  obtain ⟨y, h1, y1, y2, y3, y4⟩ := C61_convert114_keeps d hs.wf (fun v hv => by
    obtain ⟨e, he, _⟩ := hs.nodes v hv
    exact ⟨e, he⟩)
  have hwy := wf_convert114 hs.wf (fun nodes hn => C28_arrange_keeps nodes hn) h1
  have nv : "nodes".toList ≠ "version".toList := by decide +kernel
  have hnone : get? "nodes".toList d = none → get? "nodes".toList y = none := by
    intro hn
    have hokk : ∀ (k : Str) (x : Dict Str Val), get? k x = none → ∀ k', get? k (erase k' x) = none := by
      intro k x hk k'
      rw [get?_eq_none] at hk ⊢
      intro hx
      exact hk ((erase_sublist x k').map Prod.fst |>.subset hx)
    have h1' := h1
    unfold convert114 at h1'
    have g1 : get? "nodes".toList (Dict.set "version".toList (.str "1.15".toList) d) = none := by
      rw [get?_set, if_neg nv, hn]
    have w1 := wf_set hs.wf "version".toList (v := .str "1.15".toList) (by simp [wf])
    revert h1'
    generalize Dict.set "version".toList (Val.str "1.15".toList) d = d1 at g1 w1 ⊢
    simp only []
    have g2 : get? "nodes".toList (if isFalse (get? "mute".toList d1) then erase "mute".toList d1 else d1) = none := by
      split
      · exact hokk _ _ g1 _
      · exact g1
    have w2 : wf (.dict (if isFalse (get? "mute".toList d1) then erase "mute".toList d1 else d1)) := by
      split
      · exact wf_erase w1 _
      · exact w1
    generalize (if isFalse (get? "mute".toList d1) then erase "mute".toList d1 else d1) = d2 at g2 w2 ⊢
    have g3 : get? "nodes".toList (if isFalse (get? "solo".toList d2) then erase "solo".toList d2 else d2) = none := by
      split
      · exact hokk _ _ g2 _
      · exact g2
    have w3 : wf (.dict (if isFalse (get? "solo".toList d2) then erase "solo".toList d2 else d2)) := by
      split
      · exact wf_erase w2 _
      · exact w2
    generalize (if isFalse (get? "solo".toList d2) then erase "solo".toList d2 else d2) = d3 at g3 w3 ⊢
    rw [g3]
    intro h1'
    rw [← Option.some.inj h1', get_deepOrder _ ((wf_dict_iff d3).1 w3).1, g3]
    rfl
  have hshape : Shape115 y := by
    refine shape_same hwy hs (y2 _ (by decide +kernel) (by decide +kernel) (by decide +kernel) (by decide +kernel))
      (y2 _ (by decide +kernel) (by decide +kernel) (by decide +kernel) (by decide +kernel)) ?_
    intro v hv
    cases hg : get? "nodes".toList d with
    | none => rw [hnone hg] at hv; cases hv
    | some w =>
      obtain ⟨ns, rfl, _⟩ := hs.nodes w hg
      obtain ⟨ns', hns, hp⟩ := y4 ns hg
      rw [hns] at hv
      cases hv
      exact ⟨ns, ns', rfl, rfl, hp⟩
  obtain ⟨z, h2, zok, z1, z2, z3, z4⟩ := C29_conversion_keeps_data y hshape
  refine ⟨z, by simp only [applyAll, h1, h2, Option.bind_some], ?_⟩
  refine ⟨z1, ?_, ?_, fun hn => z4 (hnone hn), ?_⟩
  · intro k hk
    simp only [List.mem_cons, List.not_mem_nil, or_false, not_or] at hk
    exact SameOpt.trans (z2 k hk.1 hk.2.1) (y2 k hk.1 hk.2.1 hk.2.2.1 hk.2.2.2)
  · intro k hk
    simp only [List.mem_cons, List.not_mem_nil, or_false] at hk
    have hkv : k ≠ "version".toList ∧ k ≠ "nodes".toList := by
      rcases hk with rfl | rfl <;> exact ⟨by decide +kernel, by decide +kernel⟩
    obtain ⟨f1, f2⟩ := y3 k hk
    refine ⟨fun hf => ?_, fun hf => SameOpt.trans (z2 k hkv.1 hkv.2) (f2 hf)⟩
    have := z2 k hkv.1 hkv.2
    rw [f1 hf] at this
    exact sameOpt_none_left (SameOpt.symm this)
  · intro ns hns
    obtain ⟨ns1, hn1, hp1⟩ := y4 ns hns
    obtain ⟨ns2, hn2, _, hp2, hp3⟩ := z3 ns1 hn1
    refine ⟨ns2, hn2, fun p => ?_, fun p nd hsl hnd => ?_⟩
    · rw [hp2 p]
      have := hp1 p
      constructor
      · intro hn hsl
        rw [hn, if_pos hsl] at this
        exact sameOpt_none_left this
      · intro hn
        refine sameOpt_none_left (SameOpt.symm ?_)
        by_cases hsl : '/' ∈ p
        · rw [if_pos hsl, hn hsl] at this; exact this
        · rw [if_neg hsl] at this; exact this
    · have := hp1 p
      rw [if_pos hsl, hnd] at this
      obtain ⟨nd1, hnd1⟩ := sameOpt_dict_left this
      rw [hnd1] at this
      obtain ⟨nd2, hnd2, q1, q2⟩ := hp3 p nd1 hnd1
      refine ⟨nd2, hnd2, fun k => ?_⟩
      by_cases hk : k ∈ nodeEntries115
      · rw [if_pos hk]
        exact SameOpt.trans (q1 k hk) (sameJson_get this k)
      · rw [if_neg hk, q2 k hk]
        exact sameOpt_refl _

/-- C136: a file of version 1.10 to 1.14 in the expected shape is converted, and keeps its values. -/
theorem C136_keeps_partial (pre : Dict Str Val → Option (Dict Str Val)) (d : Dict Str Val) (a b r : Str) (M m : Nat)
    (ha : Decimal a M) (hb : Decimal b m) (hr : r = [] ∨ ∃ t, r = '.' :: t)
    (hver : get? "version".toList d = some (.str (a ++ '.' :: (b ++ r)))) (hM : M ≠ 0) (hm : 9 < m ∧ m ≤ 14)
    (hs : Shape115 d) :
    ∃ fuel0 d', (∀ fuel, fuel0 ≤ fuel → convertData pre fuel d = .ok d') ∧ SameFile d d' := by
  obtain ⟨fuel0, h⟩ := run pre d a b r M m ha hb hr hver hM (by omega)
  rw [if_neg (by omega), if_pos hm.2] at h
  obtain ⟨z, h1, h2⟩ := Converting.later hs
  exact ⟨fuel0, z, fun fuel hf => by rw [h fuel hf, h1], h2⟩

/-- C136: a converted file is left as it is by a further conversion. -/
theorem C136_again (pre : Dict Str Val → Option (Dict Str Val)) {d d' : Dict Str Val} (h : SameFile d d') :
    ∃ fuel0, ∀ fuel, fuel0 ≤ fuel → convertData pre fuel d' = .ok d' := by
  have h16 : Decimal "16".toList 16 :=
    Decimal.snoc ['1'] 1 '6' (by decide) (Decimal.one '1' (by decide))
  obtain ⟨fuel0, hf⟩ := run pre d' ['1'] "16".toList [] 1 16 (Decimal.one '1' (by decide)) h16 (.inl rfl)
    h.version (by decide) (by decide)
  refine ⟨fuel0, fun fuel hle => ?_⟩
  rw [hf fuel hle]
  rfl

/-! ### Files up to 1.9 -/

namespace Converting

theorem collect_paths (refs : List Val) (rs : List RefIn) (h : collect refOf refs = some rs) :
    (rs.map RefIn.path).filter (fun p => p ≠ []) = oldPaths refs := by
  induction refs generalizing rs with
  | nil => cases h; rfl
  | cons v refs ih =>
    rw [collect] at h
    split at h
    · rename_i b r hb hr
      rw [← Option.some.inj h, List.map_cons]
      cases v with
      | dict e =>
        rw [oldPaths]
        unfold refOf at hb
        simp only [] at hb
        cases hg : get? "path".toList e with
        | none =>
          rw [hg] at hb
          simp only [Option.getD_none] at hb
          split at hb
          · rename_i hx; cases hx
          · rw [← Option.some.inj hb, List.filter_cons_of_neg (by simp)]
            exact ih r hr
        | some w =>
          rw [hg] at hb
          simp only [Option.getD_some] at hb
          split at hb
          · rename_i p
            rw [← Option.some.inj hb]
            simp only []
            by_cases hp : p = []
            · rw [if_pos hp, List.filter_cons_of_neg (by simp [hp])]; exact ih r hr
            · rw [if_neg hp, List.filter_cons_of_pos (by simp [hp])]; rw [ih r hr]
          · rename_i hne
            split at hb
            · cases hb
            · rw [← Option.some.inj hb, List.filter_cons_of_neg (by simp)]
              split
              · rename_i p hp; exact absurd (Option.some.inj hp) (hne p)
              · exact ih r hr
      | none | bool | num | str | list | src | other => simp [refOf] at hb
    · cases h

theorem said_refOf {k : String} {f : RefIn → Val} (hf : ∀ e b, refOf (.dict e) = some b → f b = (get? k.toList e).getD .none)
    {p : Str} (hp : p ≠ []) {v : Val} {b : RefIn} (hb : refOf v = some b) :
    if b.path = p then f b = (saidBy k.toList p v).getD .none else saidBy k.toList p v = none := by
  cases v with
  | dict e =>
    have hfb := hf e b hb
    unfold refOf at hb
    simp only [] at hb
    unfold saidBy inside
    simp only []
    cases hg : get? "path".toList e with
    | none =>
      rw [hg] at hb
      simp only [Option.getD_none] at hb
      split at hb
      · rename_i hx; cases hx
      · rw [if_neg (by rw [← Option.some.inj hb]; exact fun e => hp e.symm)]
    | some w =>
      rw [hg] at hb
      simp only [Option.getD_some] at hb
      split at hb
      · rename_i q
        have hbp : b.path = q := by rw [← Option.some.inj hb]
        rw [hbp]
        by_cases hq : q = p
        · simp only [if_pos hq]; exact hfb
        · simp only [if_neg hq]
      · rename_i hne
        split at hb
        · cases hb
        · rw [if_neg (by rw [← Option.some.inj hb]; exact fun e => hp e.symm)]
          split
          · rename_i q hq; exact absurd (Option.some.inj hq) (hne q)
          · rfl
  | none | bool | num | str | list | src | other => simp [refOf] at hb

theorem said_collect (k : String) (f : RefIn → Val) (hf : ∀ e b, refOf (.dict e) = some b → f b = (get? k.toList e).getD .none)
    (p : Str) (hp : p ≠ []) (refs : List Val) (rs : List RefIn) (h : collect refOf refs = some rs) :
    lastGiven f p rs = lastSaid k.toList p refs := by
  unfold lastGiven lastSaid
  congr 1
  induction refs generalizing rs with
  | nil => cases h; rfl
  | cons v refs ih =>
    rw [collect] at h
    split at h
    · rename_i b r hb hr
      rw [← Option.some.inj h, List.filterMap_cons]
      have ih := ih r hr
      have hv := said_refOf hf hp hb
      by_cases hbp : b.path = p
      · rw [if_pos hbp] at hv
        rw [List.filter_cons_of_pos (by simp [hbp]), List.map_cons, hv]
        cases saidBy k.toList p v with
        | none =>
          simp only [Option.getD_none]
          rw [List.filter_cons_of_neg (by simp [notNone])]
          exact ih
        | some x =>
          simp only [Option.getD_some]
          rw [List.filter_cons, List.filter_cons, ih]
      · rw [if_neg hbp] at hv
        rw [hv, List.filter_cons_of_neg (by simpa using hbp)]
        exact ih
    · cases h

theorem refOf_fields {e : Dict Str Val} {b : RefIn} (h : refOf (.dict e) = some b) :
    b.mute = (get? "mute".toList e).getD .none ∧ b.solo = (get? "solo".toList e).getD .none ∧
    b.alias = (get? "alias".toList e).getD .none ∧ b.color = (get? "color".toList e).getD .none := by
  unfold refOf at h
  simp only [] at h
  split at h
  · rw [← Option.some.inj h]; exact ⟨rfl, rfl, rfl, rfl⟩
  · split at h
    · cases h
    · rw [← Option.some.inj h]; exact ⟨rfl, rfl, rfl, rfl⟩

/-- What becomes of the entries other than the ones `update_refs` is about. -/
structure RefsDone (d d1 : Dict Str Val) : Prop where
  ok : Ok d1
  other : ∀ k, k ≠ "references".toList → k ≠ "comp_overrides".toList → k ≠ "meta_data".toList →
    get? k d1 = get? k d
  noRefs : get? "references".toList d = none → get? "references".toList d1 = none
  refs : ∀ refs, get? "references".toList d = some (.list refs) → refs ≠ [] →
    get? "references".toList d1 = if oldPaths refs = [] then none else some (.list ((oldPaths refs).map Val.str))
  metaData : ∀ m, get? "meta_data".toList d = some (.dict m) → ∃ m1, get? "meta_data".toList d1 = some (.dict m1) ∧ Ok m1 ∧
    ∀ k, k ≠ "aliases".toList → k ≠ "colors".toList → get? k m1 = get? k m

theorem refsDone_same {d : Dict Str Val} (h : wf (.dict d))
    (hr : ∀ refs, get? "references".toList d = some (.list refs) → refs = []) : RefsDone d d where
  ok := ((wf_dict_iff d).1 h).1
  other := fun _ _ _ _ => rfl
  noRefs := id
  refs := fun refs h1 h2 => absurd (hr refs h1) h2
  metaData := fun m hm => ⟨m, hm, ((wf_dict_iff m).1 (((wf_dict_iff d).1 h).2 _ _ hm)).1, fun _ _ _ => rfl⟩

theorem refsDone {d d1 : Dict Str Val} (h : wf (.dict d)) (hd : updateRefsData d = some d1) : RefsDone d d1 := by
  have hok := ((wf_dict_iff d).1 h).1
  have rc : "references".toList ≠ "comp_overrides".toList := by decide +kernel
  have rm : "references".toList ≠ "meta_data".toList := by decide +kernel
  have cm : "comp_overrides".toList ≠ "meta_data".toList := by decide +kernel
  unfold updateRefsData at hd
  split at hd
  · rename_i hn
    rw [← Option.some.inj hd]
    exact refsDone_same h (fun refs hr => by rw [hn] at hr; cases hr)
  · rename_i hn
    rw [← Option.some.inj hd]
    exact refsDone_same h (fun refs hr => by rw [hn] at hr; cases hr; rfl)
  · rename_i refs hne hrefs
    simp only [Option.bind_eq_some_iff, Option.map_eq_some_iff] at hd
    obtain ⟨m, hm, o, _, overs, _, aliases, _, colors, _, rs, hrs, rfl⟩ := hd
    have hpaths := collect_paths refs rs hrs
    have hout : (updateRefs rs overs aliases colors).refs = oldPaths refs := by
      rw [← hpaths]; exact (C62_references rs overs aliases colors ['x'] (by simp)).1
    generalize updateRefs rs overs aliases colors = out at hout ⊢
    have hokm : Ok m := by
      unfold dictAt at hm
      split at hm
      · cases hm; exact ok_nil
      · rename_i e he; cases hm; exact ((wf_dict_iff m).1 (((wf_dict_iff d).1 h).2 _ _ he)).1
      · cases hm
    have hmd : ∀ m0, get? "meta_data".toList d = some (.dict m0) → m = m0 := by
      intro m0 h0
      unfold dictAt at hm
      rw [h0] at hm
      exact (Option.some.inj hm).symm
    have hoke := ok_erase hok "references".toList
    unfold storeRefs
    simp only []
    rw [hout]
    by_cases hp : (oldPaths refs).isEmpty
    · rw [if_pos hp]
      have hp' := List.isEmpty_iff.1 hp
      refine ⟨hoke, fun k k1 _ _ => by rw [get?_erase hok, if_neg k1], fun hn => (nomatch hn.symm.trans hrefs),
        fun refs' hr' _ => ?_, fun m0 h0 => ⟨m0, ?_, hmd m0 h0 ▸ hokm, fun _ _ _ => rfl⟩⟩
      · rw [hrefs] at hr'
        cases hr'
        rw [if_pos hp', get?_erase hok, if_pos rfl]
      · rw [get?_erase hok, if_neg rm.symm]; exact h0
    · rw [if_neg hp]
      have hp' : oldPaths refs ≠ [] := fun e => hp (by rw [e]; rfl)
      -- the overrides
      have hd2 : ∀ e : Dict Str Val, Ok e → ∀ b : Bool, ∀ v : Val, let e' := if b then e else Dict.set "comp_overrides".toList v e
          Ok e' ∧ ∀ k, k ≠ "comp_overrides".toList → get? k e' = get? k e := by
        intro e he b v
        simp only []
        split
        · exact ⟨he, fun _ _ => rfl⟩
        · exact ⟨ok_set he _ _, fun k hk => by rw [get?_set, if_neg hk]⟩
      have hm2 : ∀ e : Dict Str Val, Ok e → ∀ b : Bool, ∀ (x : Str) (v : Val), let e' := if b then e else Dict.set x v e
          Ok e' ∧ (∀ k, k ≠ x → get? k e' = get? k e) ∧ (e' = [] → e = []) := by
        intro e he b x v
        simp only []
        split
        · exact ⟨he, fun _ _ => rfl, id⟩
        · refine ⟨ok_set he _ _, fun k hk => by rw [get?_set, if_neg hk], fun hn => ?_⟩
          have : get? x (Dict.set x v e) = some v := by rw [get?_set, if_pos rfl]
          rw [hn] at this
          cases this
      have hok1 := ok_set hoke "references".toList (.list ((oldPaths refs).map Val.str))
      obtain ⟨q1, q2⟩ := hd2 _ hok1 out.overs.isEmpty (.dict (out.overs.map (fun e => (e.1, .dict e.2))))
      obtain ⟨a1, a2, a3⟩ := hm2 m hokm out.aliases.isEmpty "aliases".toList (.dict out.aliases)
      obtain ⟨c1, c2, c3⟩ := hm2 _ a1 out.colors.isEmpty "colors".toList (.dict out.colors)
      generalize (if out.colors.isEmpty = true then (if out.aliases.isEmpty = true then m else
        Dict.set "aliases".toList (Val.dict out.aliases) m) else Dict.set "colors".toList (Val.dict out.colors)
        (if out.aliases.isEmpty = true then m else Dict.set "aliases".toList (Val.dict out.aliases) m)) = m3 at c1 c2 c3 ⊢
      generalize (if out.overs.isEmpty = true then Dict.set "references".toList (Val.list ((oldPaths refs).map Val.str))
        (erase "references".toList d) else Dict.set "comp_overrides".toList
        (Val.dict (out.overs.map (fun e => (e.1, Val.dict e.2)))) (Dict.set "references".toList
        (Val.list ((oldPaths refs).map Val.str)) (erase "references".toList d))) = e3 at q1 q2 ⊢
      have m3get : ∀ k, k ≠ "aliases".toList → k ≠ "colors".toList → get? k m3 = get? k m :=
        fun k k1 k2 => by rw [c2 k k2, a2 k k1]
      have hget : ∀ k, k ≠ "meta_data".toList →
          get? k (if m3.isEmpty = true then e3 else Dict.set "meta_data".toList (.dict m3) e3) = get? k e3 := by
        intro k hk
        split
        · rfl
        · rw [get?_set, if_neg hk]
      refine ⟨?_, ?_, fun hn => (nomatch hn.symm.trans hrefs), ?_, ?_⟩
      · split
        · exact q1
        · exact ok_set q1 _ _
      · intro k k1 k2 k3
        rw [hget k k3, q2 k k2, get?_set, if_neg k1, get?_erase hok, if_neg k1]
      · intro refs' hr' _
        rw [hrefs] at hr'
        cases hr'
        rw [hget _ rm, q2 _ rc, get?_set, if_pos rfl, if_neg hp']
      · intro m0 h0
        have := hmd m0 h0
        subst this
        refine ⟨m3, ?_, c1, m3get⟩
        split
        · rename_i he
          have he' := List.isEmpty_iff.1 he
          rw [q2 _ cm.symm, get?_set, if_neg rm.symm, get?_erase hok, if_neg rm.symm, h0, he']
          have hm0 : m = [] := a3 (c3 he')
          rw [hm0]
        · rw [get?_set, if_pos rfl]
  · rename_i v hnil hne hv
    split at hd
    · cases hd
    · rw [← Option.some.inj hd]
      exact refsDone_same h (fun refs hr => (hne refs (Option.some.inj (hv.symm.trans hr))).elim)

theorem ok_moveEntry {m : Dict Str Val} (h : Ok m) (old new : Str) : Ok (moveEntry old new m) := by
  unfold moveEntry
  split
  · exact h
  · split
    · exact ok_set (ok_erase h _) _ _
    · exact h

theorem get_moveEntry {m : Dict Str Val} (h : Ok m) (old new : Str) (k : Str) (hk : k ≠ old) (hk' : k ≠ new) :
    get? k (moveEntry old new m) = get? k m := by
  unfold moveEntry
  split
  · rfl
  · split
    · rw [get?_set, if_neg hk', get?_erase h, if_neg hk]
    · rfl

theorem moveEntry_true {m : Dict Str Val} (h : Ok m) {old new : Str} (hne : old ≠ new) {v : Val}
    (hg : get? old m = some v) (hv : v.truthy = true) :
    get? new (moveEntry old new m) = some v ∧ get? old (moveEntry old new m) = none := by
  unfold moveEntry
  rw [hg]
  simp only []
  rw [if_pos hv, get?_set, if_pos rfl, get?_set, if_neg hne, get?_erase h, if_pos rfl]
  exact ⟨rfl, rfl⟩

theorem moveEntry_false {m : Dict Str Val} {old new : Str} (hv : ∀ v, get? old m = some v → v.truthy = false) :
    moveEntry old new m = m := by
  unfold moveEntry
  split
  · rfl
  · rename_i v hg
    rw [if_neg (by rw [hv v hg]; decide)]

theorem dictAt_inside {k : Str} {d m : Dict Str Val} (h : dictAt k d = some m) (p : Str) : inside (get? k d) p = get? p m := by
  unfold dictAt at h
  unfold inside
  cases hg : get? k d with
  | none => rw [hg] at h; cases h; rfl
  | some v =>
    rw [hg] at h
    cases v <;> simp only [reduceCtorEq] at h
    cases h
    rfl

theorem collect_overs {o : Dict Str Val} {overs : Dict Str (Dict Str Val)} (h : collect overOf o = some overs) (p : Str) :
    get? p o = (get? p overs).map Val.dict := by
  induction o generalizing overs with
  | nil => cases h; rfl
  | cons e o ih =>
    rw [collect] at h
    split at h
    · rename_i b r hb hr
      rw [← Option.some.inj h]
      obtain ⟨k, v⟩ := e
      cases v <;> simp only [overOf, reduceCtorEq] at hb
      cases hb
      rw [get?, get?]
      split
      · rfl
      · exact ih hr
    · cases h

theorem get?_mapDict (l : Dict Str (Dict Str Val)) (p : Str) : get? p (l.map (fun e => (e.1, Val.dict e.2))) = (get? p l).map Val.dict := by
  induction l with
  | nil => rfl
  | cons e l ih =>
    obtain ⟨k, v⟩ := e
    rw [List.map_cons, get?, get?]
    split
    · rfl
    · exact ih

/-- What `update_refs` writes back, looked into. -/
theorem storeRefs_inside {out : RefOut} {m d : Dict Str Val} (hok : Ok d) (hm : dictAt "meta_data".toList d = some m)
    (hr : out.refs ≠ []) :
    (∀ p, inside (inside (get? "meta_data".toList (storeRefs out m d)) "aliases".toList) p =
      if out.aliases = [] then inside (get? "aliases".toList m) p else get? p out.aliases) ∧
    (∀ p, inside (inside (get? "meta_data".toList (storeRefs out m d)) "colors".toList) p =
      if out.colors = [] then inside (get? "colors".toList m) p else get? p out.colors) ∧
    (∀ p, inside (get? "comp_overrides".toList (storeRefs out m d)) p =
      if out.overs = [] then inside (get? "comp_overrides".toList d) p else (get? p out.overs).map Val.dict) := by
  have rc : "comp_overrides".toList ≠ "references".toList := by decide +kernel
  have rm : "meta_data".toList ≠ "references".toList := by decide +kernel
  have cm : "comp_overrides".toList ≠ "meta_data".toList := by decide +kernel
  have ac : "aliases".toList ≠ "colors".toList := by decide +kernel
  have hb : ∀ {A B : Type} (l : Dict A B), l.isEmpty = true ↔ l = [] := fun l => List.isEmpty_iff
  unfold storeRefs
  simp only []
  rw [if_neg (by rw [List.isEmpty_iff]; exact hr)]
  have key : ∀ (m3 : Dict Str Val) (e3 : Dict Str Val), get? "meta_data".toList e3 = get? "meta_data".toList d →
      (m3 = [] → m = []) → ∀ k, inside (get? "meta_data".toList (if m3.isEmpty then e3 else Dict.set "meta_data".toList (.dict m3) e3)) k =
        get? k m3 := by
    intro m3 e3 h1 h2 k
    by_cases h : m3 = []
    · rw [if_pos (List.isEmpty_iff.2 h), h1, dictAt_inside hm, h2 h, h]
    · rw [if_neg (by rw [List.isEmpty_iff]; exact h), get?_set, if_pos rfl]
      rfl
  have he3 : ∀ k, k ≠ "references".toList → k ≠ "comp_overrides".toList → get? k
      (if out.overs.isEmpty then Dict.set "references".toList (Val.list (out.refs.map Val.str)) (erase "references".toList d)
        else Dict.set "comp_overrides".toList (.dict (out.overs.map (fun e => (e.1, Val.dict e.2))))
          (Dict.set "references".toList (Val.list (out.refs.map Val.str)) (erase "references".toList d))) = get? k d := by
    intro k h1 h2
    split
    · rw [get?_set, if_neg h1, get?_erase hok, if_neg h1]
    · rw [get?_set, if_neg h2, get?_set, if_neg h1, get?_erase hok, if_neg h1]
  have hset : ∀ (x : Str) (v : Val) (e : Dict Str Val), Dict.set x v e ≠ [] := by
    intro x v e h
    have : get? x (Dict.set x v e) = some v := by rw [get?_set, if_pos rfl]
    rw [h] at this
    cases this
  have hm3 : (if out.colors.isEmpty then (if out.aliases.isEmpty then m else Dict.set "aliases".toList (.dict out.aliases) m)
      else Dict.set "colors".toList (.dict out.colors)
        (if out.aliases.isEmpty then m else Dict.set "aliases".toList (.dict out.aliases) m)) = [] → m = [] := by
    intro h
    split at h
    · split at h
      · exact h
      · exact absurd h (hset _ _ _)
    · exact absurd h (hset _ _ _)
  refine ⟨fun p => ?_, fun p => ?_, fun p => ?_⟩
  · rw [key _ _ (he3 _ rm cm.symm) hm3]
    have e1 : get? "aliases".toList (if out.colors.isEmpty then (if out.aliases.isEmpty then m else Dict.set "aliases".toList (.dict out.aliases) m)
      else Dict.set "colors".toList (.dict out.colors)
        (if out.aliases.isEmpty then m else Dict.set "aliases".toList (.dict out.aliases) m)) =
        if out.aliases = [] then get? "aliases".toList m else some (.dict out.aliases) := by
      simp only [hb]
      split
      · split
        · rfl
        · rw [get?_set, if_pos rfl]
      · rw [get?_set, if_neg ac]
        split
        · rfl
        · rw [get?_set, if_pos rfl]
    rw [e1]
    split <;> rfl
  · rw [key _ _ (he3 _ rm cm.symm) hm3]
    have e1 : get? "colors".toList (if out.colors.isEmpty then (if out.aliases.isEmpty then m else Dict.set "aliases".toList (.dict out.aliases) m)
      else Dict.set "colors".toList (.dict out.colors)
        (if out.aliases.isEmpty then m else Dict.set "aliases".toList (.dict out.aliases) m)) =
        if out.colors = [] then get? "colors".toList m else some (.dict out.colors) := by
      simp only [hb]
      split
      · split
        · rfl
        · rw [get?_set, if_neg ac.symm]
      · rw [get?_set, if_pos rfl]
    rw [e1]
    split <;> rfl
  · have e1 : ∀ m3 : Dict Str Val, ∀ e3 : Dict Str Val, get? "comp_overrides".toList
        (if m3.isEmpty then e3 else Dict.set "meta_data".toList (.dict m3) e3) = get? "comp_overrides".toList e3 := by
      intro m3 e3
      split
      · rfl
      · rw [get?_set, if_neg cm]
    rw [e1]
    simp only [hb]
    split
    · rw [get?_set, if_neg rc, get?_erase hok, if_neg rc]
    · rw [get?_set, if_pos rfl]
      exact get?_mapDict _ p

end Converting

/-- C136: what the old references say of a path is kept: alias and colour in the meta data, mute and solo in the overrides, the
last one said; what was there before stays where nothing is said. -/
theorem C136_labels (d d1 : Dict Str Val) (h : wf (.dict d)) (hd : updateRefsData d = some d1) (refs : List Val)
    (hrefs : get? "references".toList d = some (.list refs)) (hne : oldPaths refs ≠ []) (p : Str) (hp : p ≠ []) :
    inside (inside (get? "meta_data".toList d1) "aliases".toList) p =
      (lastSaid "alias".toList p refs).or (inside (inside (get? "meta_data".toList d) "aliases".toList) p) ∧
    inside (inside (get? "meta_data".toList d1) "colors".toList) p =
      (lastSaid "color".toList p refs).or (inside (inside (get? "meta_data".toList d) "colors".toList) p) ∧
    ∀ k, inside (inside (get? "comp_overrides".toList d1) p) k =
      (if k = "mute".toList then lastSaid "mute".toList p refs else if k = "solo".toList then lastSaid "solo".toList p refs
        else none).or (inside (inside (get? "comp_overrides".toList d) p) k) := by
  have hok := ((wf_dict_iff d).1 h).1
  unfold updateRefsData at hd
  rw [hrefs] at hd
  cases refs with
  | nil => exact absurd rfl hne
  | cons r0 refs0 =>
    simp only [Option.bind_eq_some_iff, Option.map_eq_some_iff] at hd
    generalize r0 :: refs0 = refs at *
    obtain ⟨m, hm, o, ho, overs, hov, aliases, hal, colors, hco, rs, hrs, rfl⟩ := hd
    obtain ⟨c1, c2, c3, c4⟩ := C62_references rs overs aliases colors p hp
    rw [said_collect "alias" RefIn.alias (fun e b hb => (refOf_fields hb).2.2.1) p hp refs rs hrs, ← dictAt_inside hal] at c2
    rw [said_collect "color" RefIn.color (fun e b hb => (refOf_fields hb).2.2.2) p hp refs rs hrs, ← dictAt_inside hco] at c3
    simp only [said_collect "mute" RefIn.mute (fun e b hb => (refOf_fields hb).1) p hp refs rs hrs,
      said_collect "solo" RefIn.solo (fun e b hb => (refOf_fields hb).2.1) p hp refs rs hrs] at c4
    rw [collect_paths refs rs hrs] at c1
    obtain ⟨s1, s2, s3⟩ := storeRefs_inside (out := updateRefs rs overs aliases colors) hok hm (by rw [c1]; exact hne)
    refine ⟨?_, ?_, fun k => ?_⟩
    · rw [s1, dictAt_inside hm, ← c2]
      split
      · rename_i he
        rw [he] at c2
        have := Option.or_eq_none_iff.1 c2.symm
        rw [this.2, he]
        rfl
      · rfl
    · rw [s2, dictAt_inside hm, ← c3]
      split
      · rename_i he
        rw [he] at c3
        have := Option.or_eq_none_iff.1 c3.symm
        rw [this.2, he]
        rfl
      · rfl
    · have hold : ∀ k, inside (inside (get? "comp_overrides".toList d) p) k = get? k ((get? p overs).getD []) := by
        intro k
        rw [dictAt_inside ho, collect_overs hov p]
        cases get? p overs <;> rfl
      rw [s3, hold, ← c4 k]
      split
      · rename_i he
        have := c4 k
        rw [he] at this
        have := Option.or_eq_none_iff.1 this.symm
        rw [he, hold, this.2]
        rfl
      · cases get? p (updateRefs rs overs aliases colors).overs <;> rfl

/-- Two references to one file: the alias said last and the colour there was; an alias of a file which is not referenced stays.
-/
example : (updateRefsData
    [("references".toList, .list [.dict [("path".toList, .str ['a']), ("alias".toList, .str ['m']), ("mute".toList, .bool true)],
        .dict [("path".toList, .str ['a']), ("alias".toList, .str ['n'])]]),
      ("meta_data".toList, .dict [("aliases".toList, .dict [(['b'], .str ['o'])]), ("colors".toList, .dict [(['a'], .str ['c'])])])]).map
    (fun d => [inside (inside (get? "meta_data".toList d) "aliases".toList) ['a'],
      inside (inside (get? "meta_data".toList d) "aliases".toList) ['b'],
      inside (inside (get? "meta_data".toList d) "colors".toList) ['a'],
      inside (inside (get? "comp_overrides".toList d) ['a']) "mute".toList]) =
    some [some (.str ['n']), some (.str ['o']), some (.str ['c']), some (.bool true)] := by rfl

/-- C136: what the converter of files up to 1.9 does.  The references become the list of their paths, two
entries of the meta data get new names, the nodes are kept where their path has a slash, and everything
else is kept. -/
theorem C136_before_110 (d r : Dict Str Val) (h : wf (.dict d)) (hc : convert109 d = some r) :
    (∀ k, k ∉ ["references".toList, "comp_overrides".toList, "meta_data".toList, "nodes".toList] →
      SameOpt (get? k r) (get? k d)) ∧
    (get? "references".toList d = none → get? "references".toList r = none) ∧
    (∀ refs, get? "references".toList d = some (.list refs) → refs ≠ [] → get? "references".toList r =
      if oldPaths refs = [] then none else some (.list ((oldPaths refs).map Val.str))) ∧
    (∀ m, get? "meta_data".toList d = some (.dict m) → ∃ m', get? "meta_data".toList r = some (.dict m') ∧
      EntryMoved "position_data".toList "positions".toList m m' ∧
      EntryMoved "collapse_data".toList "collapse".toList m m' ∧
      ∀ k, k ∉ ["aliases".toList, "colors".toList, "position_data".toList, "positions".toList,
        "collapse_data".toList, "collapse".toList] → SameOpt (get? k m') (get? k m)) ∧
    (∀ ns, get? "nodes".toList d = some (.dict ns) → ∃ ns', get? "nodes".toList r = some (.dict ns') ∧
      ∀ p, SameOpt (get? p ns') (if '/' ∈ p then get? p ns else none)) := by
  have rm : "references".toList ≠ "meta_data".toList := by decide +kernel
  have rn : "references".toList ≠ "nodes".toList := by decide +kernel
  have mn : "meta_data".toList ≠ "nodes".toList := by decide +kernel
  have nr : "nodes".toList ≠ "references".toList := by decide +kernel
  have nc : "nodes".toList ≠ "comp_overrides".toList := by decide +kernel
  obtain ⟨hok, hwf⟩ := (wf_dict_iff d).1 h
  unfold convert109 at hc
  simp only [Option.map_eq_some_iff, Option.bind_eq_some_iff] at hc
  obtain ⟨d3, ⟨d2, ⟨d1, h1, h2⟩, h3⟩, rfl⟩ := hc
  have R := refsDone h h1
  -- the meta data
  have M : Ok d2 ∧ (∀ k, k ≠ "meta_data".toList → get? k d2 = get? k d1) ∧
      ∀ m, get? "meta_data".toList d1 = some (.dict m) → get? "meta_data".toList d2 =
        some (.dict (moveEntry "collapse_data".toList "collapse".toList
          (moveEntry "position_data".toList "positions".toList m))) := by
    unfold updateMeta at h2
    split at h2
    · rename_i hn
      rw [← Option.some.inj h2]
      exact ⟨R.ok, fun _ _ => rfl, fun m hm => by rw [hn] at hm; cases hm⟩
    · rename_i m hm
      rw [← Option.some.inj h2]
      refine ⟨ok_set R.ok _ _, fun k hk => by rw [get?_set, if_neg hk], fun m0 hm0 => ?_⟩
      rw [hm] at hm0
      cases hm0
      rw [get?_set, if_pos rfl]
    · rename_i v hne hv
      split at h2
      · cases h2
      · rw [← Option.some.inj h2]
        exact ⟨R.ok, fun _ _ => rfl, fun m hm => (hne m (Option.some.inj (hv.symm.trans hm))).elim⟩
  obtain ⟨ok2, get2, meta2⟩ := M
  -- the nodes
  have N : Ok d3 ∧ (∀ k, k ≠ "nodes".toList → get? k d3 = get? k d2) ∧
      ∀ ns, get? "nodes".toList d2 = some (.dict ns) → get? "nodes".toList d3 = some (.dict (arrangeNodes ns)) := by
    unfold arrangeData at h3
    split at h3
    · rename_i hn
      rw [← Option.some.inj h3]
      exact ⟨ok2, fun _ _ => rfl, fun m hm => by rw [hn] at hm; cases hm⟩
    · rename_i m hm
      rw [← Option.some.inj h3]
      refine ⟨ok_set ok2 _ _, fun k hk => by rw [get?_set, if_neg hk], fun m0 hm0 => ?_⟩
      rw [hm] at hm0
      cases hm0
      rw [get?_set, if_pos rfl]
    · cases h3
  obtain ⟨ok3, get3, nodes3⟩ := N
  have same : ∀ x : Option Val, (∀ v, x = some v → wf v) → SameOpt (x.map (deepVal KEYS_V109)) x := by
    intro x hx
    cases x with
    | none => exact sameOpt_refl _
    | some v => exact deepVal_same KEYS_V109 v (hx v rfl)
  have hget := fun k => get_deepOrder KEYS_V109 ok3 k
  refine ⟨?_, ?_, ?_, ?_, ?_⟩
  · intro k hk
    simp only [List.mem_cons, List.not_mem_nil, or_false, not_or] at hk
    obtain ⟨k1, k2, k3, k4⟩ := hk
    rw [hget, get3 k k4, get2 k k3, R.other k k1 k2 k3]
    exact same _ (fun v hv => hwf k v hv)
  · intro hn
    rw [hget, get3 _ rn, get2 _ rm, R.noRefs hn]
    rfl
  · intro refs hrefs hne
    rw [hget, get3 _ rn, get2 _ rm, R.refs refs hrefs hne]
    split
    · rfl
    · rw [Option.map_some, deepVal]
      congr 2
      induction oldPaths refs with
      | nil => rfl
      | cons p ps ih =>
        rw [List.map_cons, deepItems, ih]
        intro d hd; cases hd
  · intro m hm
    obtain ⟨m1, hm1, okm, hk1⟩ := R.metaData m hm
    have hwm := ((wf_dict_iff m).1 (hwf _ _ hm)).2
    have okp := ok_moveEntry okm "position_data".toList "positions".toList
    have okc := ok_moveEntry okp "collapse_data".toList "collapse".toList
    have hgm : ∀ k, get? k (reorder KEYS_V109 (deepPairs KEYS_V109 (moveEntry "collapse_data".toList "collapse".toList
        (moveEntry "position_data".toList "positions".toList m1)))) = (get? k (moveEntry "collapse_data".toList "collapse".toList
        (moveEntry "position_data".toList "positions".toList m1))).map (deepVal KEYS_V109) :=
      fun k => get_deepOrder KEYS_V109 okc k
    refine ⟨_, by rw [hget, get3 _ mn, meta2 m1 hm1, Option.map_some, deepVal], ⟨?_, ?_⟩, ⟨?_, ?_⟩, ?_⟩
    · intro v hv ht
      rw [hgm, hgm, get_moveEntry okp _ _ _ (by decide +kernel) (by decide +kernel),
        get_moveEntry okp _ _ _ (by decide +kernel) (by decide +kernel)]
      obtain ⟨e1, e2⟩ := moveEntry_true okm (old := "position_data".toList) (new := "positions".toList) (by decide +kernel)
        (by rw [hk1 _ (by decide +kernel) (by decide +kernel)]; exact hv) ht
      rw [e1, e2]
      exact ⟨same (some v) (fun w hw => Option.some.inj hw ▸ hwm _ v hv), rfl⟩
    · intro hf
      rw [hgm, hgm, get_moveEntry okp _ _ _ (by decide +kernel) (by decide +kernel),
        get_moveEntry okp _ _ _ (by decide +kernel) (by decide +kernel),
        moveEntry_false (by rw [hk1 _ (by decide +kernel) (by decide +kernel)]; exact hf),
        hk1 _ (by decide +kernel) (by decide +kernel), hk1 _ (by decide +kernel) (by decide +kernel)]
      exact ⟨same _ (fun v hv => hwm _ v hv), same _ (fun v hv => hwm _ v hv)⟩
    · intro v hv ht
      rw [hgm, hgm]
      obtain ⟨e1, e2⟩ := moveEntry_true okp (old := "collapse_data".toList) (new := "collapse".toList) (by decide +kernel)
        (by rw [get_moveEntry okm _ _ _ (by decide +kernel) (by decide +kernel),
              hk1 _ (by decide +kernel) (by decide +kernel)]; exact hv) ht
      rw [e1, e2]
      exact ⟨same (some v) (fun w hw => Option.some.inj hw ▸ hwm _ v hv), rfl⟩
    · intro hf
      rw [hgm, hgm, moveEntry_false (by
          rw [get_moveEntry okm _ _ _ (by decide +kernel) (by decide +kernel),
            hk1 _ (by decide +kernel) (by decide +kernel)]; exact hf),
        get_moveEntry okm _ _ _ (by decide +kernel) (by decide +kernel),
        get_moveEntry okm _ _ _ (by decide +kernel) (by decide +kernel),
        hk1 _ (by decide +kernel) (by decide +kernel), hk1 _ (by decide +kernel) (by decide +kernel)]
      exact ⟨same _ (fun v hv => hwm _ v hv), same _ (fun v hv => hwm _ v hv)⟩
    · intro k hk
      simp only [List.mem_cons, List.not_mem_nil, or_false, not_or] at hk
      obtain ⟨k1, k2, k3, k4, k5, k6⟩ := hk
      rw [hgm, get_moveEntry okp _ _ _ k5 k6, get_moveEntry okm _ _ _ k3 k4, hk1 k k1 k2]
      exact same _ (fun v hv => hwm _ v hv)
  · intro ns hns
    have hwn := hwf _ _ hns
    have hperm := C28_arrange_keeps ns ((wf_dict_iff ns).1 hwn).1
    have hwa := wf_arrange hwn hperm
    refine ⟨_, by rw [hget, nodes3 ns (by rw [get2 _ mn.symm, R.other _ nr nc mn.symm]; exact hns), Option.map_some,
      deepVal], fun p => ?_⟩
    have hga : get? p (arrangeNodes ns) = if '/' ∈ p then get? p ns else none := by
      have hoka : Ok (ns.filter (fun e => '/' ∈ e.1)) := (List.filter_sublist.map Prod.fst).nodup ((wf_dict_iff ns).1 hwn).1
      rw [get?_perm ((wf_dict_iff _).1 hwa).1 hperm]
      by_cases hp : '/' ∈ p
      · rw [if_pos hp]
        cases hx : get? p ns with
        | none =>
          rw [get?_eq_none]
          intro hm
          obtain ⟨w, hw⟩ := mem_keys.1 hm
          exact get?_eq_none.1 hx (mem_keys_of_mem (List.mem_filter.1 hw).1)
        | some w => exact get?_of_mem hoka (List.mem_filter.2 ⟨mem_of_get? hx, by simpa using hp⟩)
      · rw [if_neg hp, get?_eq_none]
        intro hm
        obtain ⟨w, hw⟩ := mem_keys.1 hm
        exact hp (by simpa using (List.mem_filter.1 hw).2)
    rw [← hga]
    have := get_deepOrder KEYS_V109 ((wf_dict_iff _).1 hwa).1 p
    unfold deepOrder at this
    rw [this]
    exact same _ (fun v hv => ((wf_dict_iff _).1 hwa).2 _ v hv)

/-! ### From the command line -/

/-- C136: without `replace` every file is kept; the new data are in a file of another name. -/
theorem C136_beside (pre : Dict Str Val → Option (Dict Str Val)) (fuel : Nat) (files files' : Disk.Files) (dir base ext : Str)
    (hd : '.' ∉ ext) (hb : '/' ∉ base) (he : '/' ∉ ext)
    (h : cliConvert pre fuel files (dir ++ '/' :: (base ++ '.' :: ext)) false = .wrote files') :
    (∀ p, p ≠ dir ++ '/' :: (base ++ "_CONVERTED.".toList ++ ext) → get? p files' = get? p files) ∧
    ∃ d r, get? (dir ++ '/' :: (base ++ '.' :: ext)) files = some (.json d) ∧
      convertData pre fuel (Disk.byteify (Disk.byteify (Disk.decodeDict d))) = .ok r ∧
      get? (dir ++ '/' :: (base ++ "_CONVERTED.".toList ++ ext)) files' = some (.json (Disk.writtenDict r)) := by
  have hout : outPath (dir ++ '/' :: (base ++ '.' :: ext)) false =
      dir ++ '/' :: (base ++ "_CONVERTED.".toList ++ ext) := by
    unfold outPath outName
    rw [Py.rpartition?_char (by simp [hb, he])]
    simp only [Py.rpartition?_char hd, Option.getD_some]
    simp
  unfold cliConvert at h
  rw [hout] at h
  split at h
  · rename_i d hg
    split at h
    · cases h
    · cases h
    · rename_i r hr
      injection h with h
      subst h
      exact ⟨fun p hp => by rw [get?_set, if_neg hp], d, r, hg, hr, by rw [get?_set, if_pos rfl]⟩
  · cases h

/-- C136: with `replace` the file itself holds the new data, and every other file is kept. -/
theorem C136_replaced (pre : Dict Str Val → Option (Dict Str Val)) (fuel : Nat) (files files' : Disk.Files) (dir base ext : Str)
    (hd : '.' ∉ ext) (hb : '/' ∉ base) (he : '/' ∉ ext)
    (h : cliConvert pre fuel files (dir ++ '/' :: (base ++ '.' :: ext)) true = .wrote files') :
    (∀ p, p ≠ dir ++ '/' :: (base ++ '.' :: ext) → get? p files' = get? p files) ∧
    ∃ d r, get? (dir ++ '/' :: (base ++ '.' :: ext)) files = some (.json d) ∧
      convertData pre fuel (Disk.byteify (Disk.byteify (Disk.decodeDict d))) = .ok r ∧
      get? (dir ++ '/' :: (base ++ '.' :: ext)) files' = some (.json (Disk.writtenDict r)) := by
  have hout : outPath (dir ++ '/' :: (base ++ '.' :: ext)) true = dir ++ '/' :: (base ++ '.' :: ext) := by
    unfold outPath outName
    rw [Py.rpartition?_char (by simp [hb, he])]
    simp only [Py.rpartition?_char hd, Option.getD_some]
    simp
  unfold cliConvert at h
  rw [hout] at h
  split at h
  · rename_i d hg
    split at h
    · cases h
    · cases h
    · rename_i r hr
      injection h with h
      subst h
      exact ⟨fun p hp => by rw [get?_set, if_neg hp], d, r, hg, hr, by rw [get?_set, if_pos rfl]⟩
  · cases h

/-- C136 violated: with `replace`, a file whose name has no dot is kept as it was; the new data go to a
hidden file. -/
theorem C136_no_dot_violation (pre : Dict Str Val → Option (Dict Str Val)) (fuel : Nat) (files files' : Disk.Files)
    (dir base : Str) (hd : '.' ∉ base) (hb : '/' ∉ base)
    (h : cliConvert pre fuel files (dir ++ '/' :: base) true = .wrote files') :
    get? (dir ++ '/' :: base) files' = get? (dir ++ '/' :: base) files ∧
    (get? (dir ++ '/' :: '.' :: base) files').isSome := by
  have hout : outPath (dir ++ '/' :: base) true = dir ++ '/' :: '.' :: base := by
    unfold outPath outName
    rw [Py.rpartition?_char hb]
    simp only [Py.rpartition?_char_none hd, Option.getD_none]
    simp
  unfold cliConvert at h
  rw [hout] at h
  split at h
  · split at h
    · cases h
    · cases h
    · injection h with h
      subst h
      refine ⟨?_, by rw [get?_set, if_pos rfl]; rfl⟩
      rw [get?_set, if_neg]
      intro e
      have := congrArg List.length e
      simp at this
  · cases h

/-- C136 violated: opening a file of a newer version raises, converting it never ends. -/
theorem C136_newer_violation (pre : Dict Str Val → Option (Dict Str Val)) (fuel : Nat) (d : Dict Str Val)
    (a b r : Str) (M m : Nat) (ha : Decimal a M) (hb : Decimal b m) (hr : r = [] ∨ ∃ t, r = '.' :: t)
    (hver : get? "version".toList d = some (.str (a ++ '.' :: (b ++ r)))) (hM : M ≠ 0) (hm : 17 < m) :
    Version.gate (versionOf d) = .tooNew ∧ convertData pre fuel d = .outOfFuel := by
  rw [versionOf_text hver]
  refine ⟨(C26_version_gate a b r M m ha hb hr).1.2 ?_, ?_⟩
  · unfold Before; omega
  · have hd : Version.determineVersion (versionOf d) = .minor m := by
      rw [versionOf_text hver]
      unfold Version.determineVersion
      rw [Option.getD_some, Version.majorMinor_decimal ha hb hr]
      simp only
      rw [if_neg (by omega), if_neg (by omega)]
    unfold convertData Version.convertFile
    rw [hd]
    exact C27_newer_diverges_violation table table_below m (by unfold Version.GRAPH_MINOR; omega) d fuel

/-- C136 violated: a file without a version is opened as it is, but converted as one from before 1.0. -/
theorem C136_no_version_violation (pre : Dict Str Val → Option (Dict Str Val)) (fuel : Nat) (d : Dict Str Val)
    (hver : get? "version".toList d = none) :
    Version.gate (versionOf d) = .asIs ∧ (pre d = none → convertData pre fuel d = .fail) ∧
    ∀ d', pre d = some d' → get? "version".toList d' = some (.str "1.0.0".toList) →
      convertData pre fuel d = Version.convLoop table fuel 0 d' := by
  have hv : versionOf d = none := by unfold versionOf; rw [hver]
  have hd : Version.determineVersion none = .preRelease := by decide +kernel
  rw [hv]
  refine ⟨C26_no_version.1, fun hp => ?_, fun d' hp hv' => ?_⟩
  · unfold convertData Version.convertFile
    rw [hv, hd, hp]
  · have hd' : Version.determineVersion (some "1.0.0".toList) = .minor 0 := by decide +kernel
    unfold convertData Version.convertFile
    rw [hv, hd, hp]
    simp only [versionOf_text hv', hd']

/-! ### Cases -/

/-- A 1.12 file. -/
def conv112 : Dict Str Val :=
  [("version".toList, .str "1.12".toList), ("alias".toList, .str ['x']), ("mute".toList, .bool false),
   ("nodes".toList, .dict [("/a".toList, .dict [("code".toList, .list [.str ['c']]), ("odd".toList, .num 1)]),
     ("lost".toList, .dict [])])]

/-- A case of `C136_keeps_partial`: the version text, the shape and the outcome. -/
example (pre : Dict Str Val → Option (Dict Str Val)) : ∃ fuel0 d', (∀ fuel, fuel0 ≤ fuel → convertData pre fuel conv112 = .ok d') ∧
    SameFile conv112 d' := by
  refine C136_keeps_partial pre conv112 ['1'] "12".toList [] 1 12 (Decimal.one '1' (by decide))
    (Decimal.snoc ['1'] 1 '2' (by decide) (Decimal.one '1' (by decide))) (.inl rfl) rfl (by decide) (by decide)
    ⟨?_, ?_, ?_, ?_⟩
  · simp only [conv112, wf, wfPairs, wfList, and_true, true_and]
    decide +kernel
  · intro v hv
    have : v = .dict [("/a".toList, .dict [("code".toList, .list [.str ['c']]), ("odd".toList, .num 1)]),
      ("lost".toList, .dict [])] := (Option.some.inj hv).symm
    subst this
    refine ⟨_, rfl, fun p n hp => ?_⟩
    rcases List.mem_cons.1 (mem_of_get? hp) with h | h
    · cases h
      exact ⟨_, rfl, fun a ha => nomatch (show (none : Option Val) = some a from ha)⟩
    · cases List.mem_singleton.1 h
      exact ⟨_, rfl, fun a ha => nomatch (show (none : Option Val) = some a from ha)⟩
  · intro v hv; exact nomatch (show (none : Option Val) = some v from hv)
  · intro v hv; exact nomatch (show (none : Option Val) = some v from hv)

/-- A 1.9 file. -/
def conv109 : Dict Str Val :=
  [("version".toList, .str "1.9".toList),
   ("references".toList, .list [.dict [("path".toList, .str ['r']), ("mute".toList, .bool true)], .dict []]),
   ("meta_data".toList, .dict [("position_data".toList, .dict [(['p'], .num 1)]), ("collapse_data".toList, .dict [])])]

/-- A case of `C136_before_110`. -/
example : wf (.dict conv109) ∧ convert109 conv109 = some
    [("version".toList, .str "1.9".toList),
     ("references".toList, .list [.str ['r']]),
     ("comp_overrides".toList, .dict [(['r'], .dict [("mute".toList, .bool true)])]),
     ("meta_data".toList, .dict [("collapse_data".toList, .dict []), ("positions".toList, .dict [(['p'], .num 1)])])] := by
  refine ⟨?_, rfl⟩
  simp only [conv109, wf, wfPairs, wfList, and_true, true_and]
  decide +kernel

/-- Cases of `C136_beside`, `C136_replaced` and `C136_no_dot_violation`: a 1.16 file is written as it is. -/
example : let d : Dict Str Val := [("version".toList, .str "1.16".toList)]
    let run (p : String) (replace : Bool) := cliConvert (fun _ => none) 5 [(p.toList, .json d)] p.toList replace
    run "/d/a.b.nxt" false = .wrote [("/d/a.b.nxt".toList, .json d), ("/d/a.b_CONVERTED.nxt".toList, .json d)] ∧
    run "/d/a.nxt" true = .wrote [("/d/a.nxt".toList, .json d)] ∧
    run "/d/a" true = .wrote [("/d/a".toList, .json d), ("/d/.a".toList, .json d)] := ⟨rfl, rfl, rfl⟩

/-- A case of `C136_newer_violation`. -/
example : Decimal "18".toList 18 ∧ versionOf [("version".toList, .str "1.18".toList)] = some "1.18".toList :=
  ⟨Decimal.snoc ['1'] 1 '8' (by decide) (Decimal.one '1' (by decide)), rfl⟩

end Nxt.Props
