import Verif.Spec.ChildCache
import Verif.Lemmas.Dict
/-!
# Lemmas about the child cache
-/
namespace Nxt.Tree
open Dict Spec

theorem mem_scan {same : Str → Str → Bool} (hs : ∀ a b, same a b = true ↔ a = b) (nodes : Nodes) (p q : Str) :
    q ∈ keys (scan same nodes p) ↔ ∃ n, (q, n) ∈ nodes ∧ n.parent = p := by
  rw [mem_keys]
  unfold scan
  simp only [List.mem_filter, hs]

theorem scan_nodup {same : Str → Str → Bool} {nodes : Nodes} (h : Ok nodes) (p : Str) :
    (keys (scan same nodes p)).Nodup := (List.filter_sublist.map Prod.fst).nodup h

theorem cacheOk_step {same : Str → Str → Bool} (hs : ∀ a b, same a b = true ↔ a = b) {st : Nodes × Cache} {op : COp}
    (hn : Ok st.1) (hc : Ok st.2) (h : CacheOk st.1 st.2) (ha : Allowed st.1 st.2 op) :
    Ok (stepC same st op).1 ∧ Ok (stepC same st op).2 ∧ CacheOk (stepC same st op).1 (stepC same st op).2 := by
  obtain ⟨nodes, c⟩ := st
  simp only at hn hc h
  cases op with
  | query p =>
    simp only [stepC]
    unfold query
    split
    · exact ⟨hn, hc, h⟩
    · refine ⟨hn, ok_set hc _ _, ?_⟩
      intro p' e he hp0 hp'
      simp only at he
      rw [get?_set] at he
      split at he
      · rename_i hpp
        have he := (Option.some.inj he).symm
        subst he
        rw [hpp]
        exact ⟨rfl, rfl, scan_nodup hn p, mem_scan hs nodes p⟩
      · exact h p' e he hp0 hp'
  | clear p =>
    simp only [stepC, clear]
    refine ⟨hn, ok_erase hc _, ?_⟩
    intro p' e he hp0 hp'
    rw [get?_erase hc] at he
    split at he
    · cases he
    · exact h p' e he hp0 hp'
  | add path n =>
    obtain ⟨ha1, ha2⟩ := ha
    simp only at ha1 ha2
    simp only [stepC]
    have hmem : ∀ q m, (q, m) ∈ set path n nodes ↔ (q, m) ∈ nodes ∨ (q = path ∧ m = n) := by
      intro q m
      rw [set_of_not_mem ha1]
      simp
    have hother : ∀ p e, get? p c = some e → p ≠ [] → p ≠ ['/'] → p ≠ n.parent →
        e.nodes = e.paths ∧ e.table = e.paths ∧ e.paths.Nodup ∧
          ∀ q, q ∈ e.paths ↔ ∃ m, (q, m) ∈ set path n nodes ∧ m.parent = p := by
      intro p e he hp0 hpw hpn
      obtain ⟨h1, h2, h3, h4⟩ := h p e he hp0 hpw
      refine ⟨h1, h2, h3, fun q => ?_⟩
      rw [h4]
      constructor
      · rintro ⟨m, hm, hmp⟩; exact ⟨m, (hmem q m).2 (.inl hm), hmp⟩
      · rintro ⟨m, hm, hmp⟩
        rcases (hmem q m).1 hm with hm | ⟨rfl, rfl⟩
        · exact ⟨m, hm, hmp⟩
        · exact absurd hmp.symm hpn
    unfold addChild
    split
    · rename_i hp
      refine ⟨ok_set hn _ _, hc, ?_⟩
      intro p e he hp0 hpw
      apply hother p e he hp0 hpw
      rintro rfl
      exact hp.elim hp0 hpw
    · rename_i hp
      refine ⟨ok_set hn _ _, ok_set hc _ _, ?_⟩
      intro p e he hp0 hpw
      rw [get?_set] at he
      split at he
      · rename_i hpp
        have he := (Option.some.inj he).symm
        subst he hpp
        have hold : let e := (get? n.parent c).getD ⟨[], [], []⟩
            e.nodes = e.paths ∧ e.table = e.paths ∧ e.paths.Nodup ∧
            ∀ q, q ∈ e.paths ↔ ∃ m, (q, m) ∈ nodes ∧ m.parent = n.parent := by
          cases hg : get? n.parent c with
          | some e => exact h _ e hg hp0 hpw
          | none =>
            refine ⟨rfl, rfl, List.nodup_nil, fun q => ?_⟩
            rcases ha2 with ha2 | ha2
            · exact absurd ha2 (get?_eq_none.1 hg)
            · constructor
              · intro h; cases h
              · rintro ⟨m, hm, hmp⟩; exact absurd hmp (ha2 q m hm)
        generalize (get? n.parent c).getD ⟨[], [], []⟩ = e at hold
        obtain ⟨h1, h2, h3, h4⟩ := hold
        simp only
        refine ⟨by rw [h1], by rw [h2], ?_, fun q => ?_⟩
        · rw [List.nodup_append]
          refine ⟨h3, List.nodup_cons.2 ⟨by simp, List.nodup_nil⟩, ?_⟩
          rintro a ha b hb rfl
          rw [List.mem_singleton] at hb
          subst hb
          obtain ⟨m, hm, -⟩ := (h4 a).1 ha
          exact ha1 (mem_keys_of_mem hm)
        · rw [List.mem_append, h4, List.mem_singleton]
          constructor
          · rintro (⟨m, hm, hmp⟩ | rfl)
            · exact ⟨m, (hmem q m).2 (.inl hm), hmp⟩
            · exact ⟨n, (hmem q n).2 (.inr ⟨rfl, rfl⟩), rfl⟩
          · rintro ⟨m, hm, hmp⟩
            rcases (hmem q m).1 hm with hm | ⟨rfl, rfl⟩
            · exact .inl ⟨m, hm, hmp⟩
            · exact .inr rfl
      · rename_i hpp
        exact hother p e he hp0 hpw hpp
  | remove path =>
    simp only [stepC]
    cases hg : get? path nodes with
    | none => exact ⟨hn, hc, h⟩
    | some n =>
      simp only
      have hmem : ∀ q m, (q, m) ∈ erase path nodes ↔ (q, m) ∈ nodes ∧ q ≠ path := by
        intro q m
        rw [← get?_iff_mem (ok_erase hn path), get?_erase hn, ← get?_iff_mem hn]
        by_cases hq : q = path <;> simp [hq]
      have hcl : Ok (clear c path) := ok_erase hc _
      have hother : ∀ p e, get? p (clear c path) = some e → p ≠ [] → p ≠ ['/'] → p ≠ n.parent →
          e.nodes = e.paths ∧ e.table = e.paths ∧ e.paths.Nodup ∧
            ∀ q, q ∈ e.paths ↔ ∃ m, (q, m) ∈ erase path nodes ∧ m.parent = p := by
        intro p e he hp0 hpw hpn
        unfold clear at he
        rw [get?_erase hc] at he
        split at he
        · cases he
        obtain ⟨h1, h2, h3, h4⟩ := h p e he hp0 hpw
        refine ⟨h1, h2, h3, fun q => ?_⟩
        rw [h4]
        constructor
        · rintro ⟨m, hm, hmp⟩
          refine ⟨m, (hmem q m).2 ⟨hm, ?_⟩, hmp⟩
          rintro rfl
          rw [get?_of_mem hn hm] at hg
          cases hg
          exact hpn hmp.symm
        · rintro ⟨m, hm, hmp⟩; exact ⟨m, ((hmem q m).1 hm).1, hmp⟩
      unfold removeChild
      split
      · rename_i hpar
        refine ⟨ok_erase hn _, hcl, fun p e he hp0 hpw => hother p e he hp0 hpw ?_⟩
        rintro rfl; exact hpw hpar
      · split
        · rename_i hnone
          refine ⟨ok_erase hn _, hcl, fun p e he hp0 hpw => hother p e he hp0 hpw ?_⟩
          rintro rfl; rw [hnone] at he; cases he
        · rename_i e0 he0
          refine ⟨ok_erase hn _, ok_set hcl _ _, ?_⟩
          intro p e he hp0 hpw
          rw [get?_set] at he
          split at he
          · rename_i hpp
            have he := (Option.some.inj he).symm
            subst he hpp
            unfold clear at he0
            rw [get?_erase hc] at he0
            split at he0
            · cases he0
            obtain ⟨h1, h2, h3, h4⟩ := h _ e0 he0 hp0 hpw
            simp only
            refine ⟨by rw [h1], by rw [h2], h3.erase _, fun q => ?_⟩
            rw [h3.mem_erase_iff, h4]
            constructor
            · rintro ⟨hq, m, hm, hmp⟩; exact ⟨m, (hmem q m).2 ⟨hm, hq⟩, hmp⟩
            · rintro ⟨m, hm, hmp⟩
              have := (hmem q m).1 hm
              exact ⟨this.2, m, this.1, hmp⟩
          · rename_i hpp
            exact hother p e he hp0 hpw hpp

end Nxt.Tree
