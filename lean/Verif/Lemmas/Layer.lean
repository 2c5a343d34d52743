import Verif.Model.Layer
import Verif.Lemmas.Dict
/-!
# Lemmas about layer state and save ordering
-/
namespace Nxt.Layer
open Dict

/-! ### Overrides -/

theorem compedOvers_append {K V : Type} [DecidableEq K] (chain : List (Dict K V)) (t : Dict K V) :
    compedOvers (chain ++ [t]) = update (compedOvers chain) t := by
  simp [compedOvers]

theorem ok_compedOvers {K V : Type} [DecidableEq K] (chain : List (Dict K V)) : Ok (compedOvers chain) := by
  unfold compedOvers
  have : ∀ (d : Dict K V), Ok d → Ok (chain.foldl update d) := by
    induction chain with
    | nil => intro d h; exact h
    | cons t ts ih => intro d h; exact ih _ (ok_update h t)
  exact this [] ok_nil

/-- Lookup in the comped table: the last table of the chain having the key. -/
theorem get?_compedOvers {K V : Type} [DecidableEq K] (chain : List (Dict K V))
    (h : ∀ t ∈ chain, Ok t) (k : K) :
    get? k (compedOvers chain) = chain.reverse.findSome? (get? k) := by
  have key : ∀ (rev : List (Dict K V)), (∀ t ∈ rev, Ok t) →
      get? k (compedOvers rev.reverse) = rev.findSome? (get? k) := by
    intro rev
    induction rev with
    | nil => intro _; rfl
    | cons t ts ih =>
      intro h
      rw [List.reverse_cons, compedOvers_append, get?_update (h t (by simp)),
        ih (fun t ht => h t (by simp [ht])), List.findSome?_cons]
      cases get? k t <;> rfl
  have := key chain.reverse (fun t ht => h t (List.mem_reverse.1 ht))
  rwa [List.reverse_reverse] at this

/-! ### Ordering -/

theorem nodup_filter {α : Type} (p : α → Bool) {l : List α} (h : l.Nodup) : (l.filter p).Nodup :=
  List.filter_sublist.nodup h


/-- Every entry of `res` is an entry of `data`. -/
def Agrees {V : Type} (data res : Dict Str V) : Prop :=
  ∀ k ∈ keys res, get? k res = get? k data

theorem agrees_set {V : Type} {data res : Dict Str V} {k : Str} {v : V} (h : Agrees data res)
    (hk : get? k data = some v) : Agrees data (set k v res) := by
  intro k' hk'
  rw [get?_set]
  split
  · rename_i he; rw [he, hk]
  · rename_i he
    rcases mem_keys_set.1 hk' with h1 | h1
    · exact absurd h1 he
    · exact h k' h1

theorem leftoverLoop_spec {V : Type} (data : Dict Str V) (left : List Str) (res : Dict Str V)
    (hl : ∀ k ∈ left, k ∈ keys data) (hn : left.Nodup) (hres : Ok res) (ha : Agrees data res) :
    Ok (leftoverLoop data left res) ∧ Agrees data (leftoverLoop data left res) ∧
    keys (leftoverLoop data left res) = keys res ++ left.filter (fun k => k ∉ keys res) := by
  induction left generalizing res with
  | nil => exact ⟨hres, ha, by simp [leftoverLoop]⟩
  | cons k ks ih =>
    rw [leftoverLoop]
    have hk := hl k (by simp)
    have hn' := List.nodup_cons.1 hn
    cases hg : get? k data with
    | none => exact absurd hk (get?_eq_none.1 hg)
    | some v =>
      simp only
      obtain ⟨h1, h2, h3⟩ := ih (set k v res) (fun k hk => hl k (by simp [hk])) hn'.2
        (ok_set hres k v) (agrees_set ha hg)
      refine ⟨h1, h2, ?_⟩
      rw [h3]
      by_cases hm : k ∈ keys res
      · have : keys (set k v res) = keys res := by rw [keys_set, if_pos hm]
        rw [this, List.filter_cons, if_neg (by simp [hm])]
      · have : keys (set k v res) = keys res ++ [k] := by rw [keys_set, if_neg hm]
        rw [this, List.filter_cons, if_pos (by simp [hm])]
        simp only [List.append_assoc, List.cons_append, List.nil_append]
        congr 2
        apply List.filter_congr
        intro x hx
        have : x ≠ k := by rintro rfl; exact hn'.1 hx
        simp [this]

theorem perm_of_agrees {V : Type} {data res : Dict Str V} (hd : Ok data) (hr : Ok res)
    (ha : Agrees data res) (hk : ∀ k, k ∈ keys res ↔ k ∈ keys data) : res.Perm data := by
  apply perm_of_get? hr hd
  intro k
  by_cases h : k ∈ keys res
  · exact ha k h
  · rw [get?_eq_none.2 h, get?_eq_none.2 (fun h' => h ((hk k).2 h'))]

theorem orderLoop_spec {V : Type} (data : Dict Str V) (hd : Ok data) (ks done : List Str)
    (res : Dict Str V) (hn : (done ++ ks).Nodup) (hres : Ok res) (ha : Agrees data res)
    (hk : keys res = done.filter (fun k => k ∈ keys data)) :
    let st := orderLoop data ks (res, (keys data).filter (fun k => k ∉ done))
    Ok st.1 ∧ Agrees data st.1 ∧ keys st.1 = (done ++ ks).filter (fun k => k ∈ keys data) ∧
      st.2 = (keys data).filter (fun k => k ∉ done ++ ks) := by
  induction ks generalizing done res with
  | nil => simp [orderLoop, hres, ha, hk]
  | cons k ks ih =>
    have hkd : k ∉ done := by
      intro h
      rw [List.nodup_append] at hn
      exact hn.2.2 k h k (by simp) rfl
    have e : done ++ k :: ks = (done ++ [k]) ++ ks := by simp
    simp only [orderLoop]
    by_cases hm : k ∈ keys data
    · rw [if_pos (by simp [hm, hkd])]
      cases hg : get? k data with
      | none => exact absurd hm (get?_eq_none.1 hg)
      | some v =>
        simp only
        have hkr : k ∉ keys res := by rw [hk]; simp [hkd]
        have hl : ((keys data).filter (fun k => decide (k ∉ done))).erase k
            = (keys data).filter (fun x => decide (x ∉ done ++ [k])) := by
          rw [List.Nodup.erase_eq_filter (nodup_filter _ hd), List.filter_filter]
          apply List.filter_congr
          intro x _
          by_cases h1 : x ∈ done <;> by_cases h2 : x = k <;> simp [h1, h2]
        rw [hl]
        have := ih (done ++ [k]) (set k v res) (by rwa [← e]) (ok_set hres k v) (agrees_set ha hg)
          (by rw [keys_set, if_neg hkr, hk]; simp [hm])
        rw [e]; exact this
    · rw [if_neg (by simp [hm])]
      have hl : (keys data).filter (fun x => decide (x ∉ done))
            = (keys data).filter (fun x => decide (x ∉ done ++ [k])) := by
          apply List.filter_congr
          intro x hx
          have : x ≠ k := by rintro rfl; exact hm hx
          simp [this]
      rw [hl, e]
      exact ih (done ++ [k]) res (by rwa [← e]) hres ha (by rw [hk]; simp [hm])

/-- The keys of the node order up to `done`, with the attributes before the code. -/
def withAttrs (data : Dict Str Val) : List Str → List Str
  | [] => []
  | k :: ks =>
    if k = CODE ∧ (get? ATTRS data).any Val.truthy then
      ATTRS :: k :: withAttrs data ks
    else k :: withAttrs data ks

theorem withAttrs_append (data : Dict Str Val) (a b : List Str) :
    withAttrs data (a ++ b) = withAttrs data a ++ withAttrs data b := by
  induction a with
  | nil => rfl
  | cons k ks ih =>
    simp only [List.cons_append, withAttrs, ih]
    split <;> simp

theorem mem_withAttrs_of_mem {data : Dict Str Val} {ks : List Str} {k : Str} (h : k ∈ ks) :
    k ∈ withAttrs data ks := by
  induction ks with
  | nil => simp at h
  | cons a ks ih =>
    rw [withAttrs]
    rcases List.mem_cons.1 h with rfl | h
    · split <;> simp
    · split <;> simp [ih h]

theorem orderNodeLoop_spec (data : Dict Str Val) (hd : Ok data) (ks done : List Str)
    (res : Dict Str Val) (hn : (withAttrs data (done ++ ks)).Nodup) (hres : Ok res)
    (ha : Agrees data res)
    (hk : keys res = (withAttrs data done).filter (fun k => k ∈ keys data)) :
    let st := orderNodeLoop data ks (res, (keys data).filter (fun k => k ∉ done))
    Ok st.1 ∧ Agrees data st.1 ∧
      keys st.1 = (withAttrs data (done ++ ks)).filter (fun k => k ∈ keys data) ∧
      st.2 = (keys data).filter (fun k => k ∉ done ++ ks) := by
  induction ks generalizing done res with
  | nil => simp [orderNodeLoop, hres, ha, hk]
  | cons k ks ih =>
    have e : done ++ k :: ks = (done ++ [k]) ++ ks := by simp
    simp only [orderNodeLoop]
    -- the possible insertion of the attributes
    generalize hr1 : insertAttrs data k res = res1
    unfold insertAttrs at hr1
    have hw : withAttrs data (done ++ k :: ks)
        = withAttrs data done ++ (withAttrs data [k] ++ withAttrs data ks) := by
      rw [e, withAttrs_append, withAttrs_append, List.append_assoc]
    rw [hw] at hn
    have hn1 := List.nodup_append.1 hn
    have hres1 : Ok res1 ∧ Agrees data res1 ∧ k ∉ keys res1 ∧
        keys res1 ++ (if k ∈ keys data then [k] else [])
          = (withAttrs data (done ++ [k])).filter (fun k => k ∈ keys data) := by
      have hkd : k ∉ withAttrs data done := by
        intro h
        exact hn1.2.2 k h k (by simp [mem_withAttrs_of_mem]) rfl
      rw [withAttrs_append]
      cases hg : get? ATTRS data with
      | none =>
        rw [hg] at hr1
        simp only at hr1
        subst hr1
        refine ⟨hres, ha, by rw [hk]; simp [hkd], ?_⟩
        rw [List.filter_append, ← hk]
        simp only [withAttrs, hg, Option.any_none, Bool.false_eq_true, and_false, if_false]
        by_cases hm : k ∈ keys data <;> simp [hm]
      | some a =>
        rw [hg] at hr1
        simp only at hr1
        by_cases hc : k = CODE ∧ a.truthy = true
        · rw [if_pos hc] at hr1
          subst hr1
          have hwk : withAttrs data [k] = [ATTRS, k] := by
            simp [withAttrs, hg, hc.1, hc.2]
          have hat : ATTRS ∉ keys res := by
            rw [hk]
            intro h
            rw [List.mem_filter] at h
            exact hn1.2.2 _ h.1 ATTRS (by rw [hwk]; simp) rfl
          have hak : ATTRS ∈ keys data := by
            rw [← get?_isSome, hg]; rfl
          refine ⟨ok_set hres _ _, agrees_set ha hg, ?_, ?_⟩
          · rw [mem_keys_set, not_or]
            refine ⟨?_, by rw [hk]; simp [hkd]⟩
            rw [hc.1]; decide
          · rw [hwk, List.filter_append, ← hk, keys_set, if_neg hat]
            by_cases hm : k ∈ keys data <;> simp [hm, hak, List.filter_cons]
        · rw [if_neg hc] at hr1
          subst hr1
          have hwk : withAttrs data [k] = [k] := by
            simp only [withAttrs, hg, Option.any_some]
            rw [if_neg hc]
          refine ⟨hres, ha, by rw [hk]; simp [hkd], ?_⟩
          rw [List.filter_append, ← hk, hwk]
          by_cases hm : k ∈ keys data <;> simp [hm]
    obtain ⟨hr2, hr3, hr4, hr5⟩ := hres1
    have hkd : k ∉ done := by
      intro h
      exact hn1.2.2 k (mem_withAttrs_of_mem h) k (by simp [mem_withAttrs_of_mem]) rfl
    cases hg : get? k data with
    | none =>
      have hm : k ∉ keys data := get?_eq_none.1 hg
      simp only
      have hl : (keys data).filter (fun x => decide (x ∉ done))
            = (keys data).filter (fun x => decide (x ∉ done ++ [k])) := by
          apply List.filter_congr
          intro x hx
          have : x ≠ k := by rintro rfl; exact hm hx
          simp [this]
      rw [hl, e]
      exact ih (done ++ [k]) res1 (by rw [← e, hw]; exact hn) hr2 hr3 (by simpa [hm] using hr5)
    | some v =>
      have hm : k ∈ keys data := by rw [← get?_isSome, hg]; rfl
      simp only
      have hl : ((keys data).filter (fun k => decide (k ∉ done))).erase k
            = (keys data).filter (fun x => decide (x ∉ done ++ [k])) := by
          rw [List.Nodup.erase_eq_filter (nodup_filter _ hd), List.filter_filter]
          apply List.filter_congr
          intro x _
          by_cases h1 : x ∈ done <;> by_cases h2 : x = k <;> simp [h1, h2]
      rw [hl, e]
      refine ih (done ++ [k]) (set k v res1) (by rw [← e, hw]; exact hn) (ok_set hr2 k v)
        (agrees_set hr3 hg) ?_
      rw [keys_set, if_neg hr4]
      simpa [hm] using hr5

end Nxt.Layer
