import Verif.Lemmas.NodeData
import Verif.Props.Layer
import Verif.Spec.NodeData
/-!
# Lemmas about the save data of a node
-/
namespace Nxt.NodeData
open Props
open Dict Layer NodeData

/-- The save data of a node: an unordered description. -/
theorem saveNode_spec (b : List Str) (n : Dict Str Val) :
    Ok (saveNode b n) ∧
    get? ATTRS (saveNode b n)
      = (if (userAttrs b n).isEmpty then none else some (.dict (sortByKey (userAttrs b n)))) ∧
    (∀ a ∈ savedAttrs n, get? (saveKey a) (saveNode b n)
      = if (getAttr n a).hasOpinion then some (getAttr n a) else none) ∧
    (∀ x, x ≠ ATTRS → (∀ a ∈ savedAttrs n, x ≠ saveKey a) → get? x (saveNode b n) = none) := by
  have hok : Ok (saveInternals n (savedAttrs n) (userPart b n)) :=
    ok_saveInternals n _ _ (ok_userPart b n)
  have hp := (C24_order_node_dict _ hok).1
  have hdef : saveNode b n = orderNodeDict (saveInternals n (savedAttrs n) (userPart b n)) := rfl
  have hg : ∀ k, get? k (saveNode b n) = get? k (saveInternals n (savedAttrs n) (userPart b n)) := by
    intro k
    rw [hdef]
    exact (get?_perm hok hp.symm k).symm
  have hinj : ∀ a ∈ savedAttrs n, ∀ a' ∈ savedAttrs n, saveKey a = saveKey a' → a = a' :=
    fun a ha a' ha' => saveKey_inj_saved a (savedAttrs_sub n a ha) a' (savedAttrs_sub n a' ha')
  have hup : ∀ x, get? x (userPart b n) = if x = ATTRS then
      (if (userAttrs b n).isEmpty then none else some (.dict (sortByKey (userAttrs b n)))) else none := by
    intro x
    unfold userPart
    split
    · simp [get?]
    · rw [get?_set]; simp [get?]
  refine ⟨ok_perm hok hp.symm, ?_, ?_, ?_⟩
  · rw [hg, (get?_saveInternals n _ _ hinj ATTRS).2, hup, if_pos rfl]
    exact fun a ha => saveKey_ne_attrs a (savedAttrs_sub n a ha)
  · intro a ha
    rw [hg, (get?_saveInternals n _ _ hinj (saveKey a)).1 a ha rfl, hup,
      if_neg (saveKey_ne_attrs a (savedAttrs_sub n a ha)).symm]
  · intro x hx hx'
    rw [hg, (get?_saveInternals n _ _ hinj x).2 hx', hup, if_neg hx]

/-- Names kept once, in order of first appearance. -/
theorem dedup_spec (l acc : List Str) (h : acc.Nodup) :
    (dedup l acc).Nodup ∧ (∀ x, x ∈ dedup l acc ↔ x ∈ acc ∨ x ∈ l) ∧
    (l.Nodup → (∀ x ∈ l, x ∉ acc) → dedup l acc = acc ++ l) := by
  induction l generalizing acc with
  | nil => simp [dedup, h]
  | cons c cs ih =>
    rw [dedup]
    by_cases hc : c ∈ acc
    · rw [if_pos hc]
      obtain ⟨h1, h2, h3⟩ := ih acc h
      refine ⟨h1, fun x => ?_, fun _ hx => absurd hc (hx c (by simp))⟩
      rw [h2, List.mem_cons]
      constructor
      · rintro (h | h)
        · exact .inl h
        · exact .inr (.inr h)
      · rintro (h | rfl | h)
        · exact .inl h
        · exact .inl hc
        · exact .inr h
    · rw [if_neg hc]
      obtain ⟨h1, h2, h3⟩ := ih (acc ++ [c]) (by
        rw [List.nodup_append]
        exact ⟨h, by simp, by rintro a ha b hb rfl; simp at hb; exact hc (hb ▸ ha)⟩)
      refine ⟨h1, fun x => ?_, fun hn hx => ?_⟩
      · rw [h2]; simp [or_assoc]
      · have hn' := List.nodup_cons.1 hn
        rw [h3 hn'.2]
        · simp
        · intro x hxm hxa
          rw [List.mem_append] at hxa
          rcases hxa with h | h
          · exact hx x (by simp [hxm]) h
          · simp at h; subst h; exact hn'.1 hxm

theorem names_map (l : List Str) : names (.list (l.map Val.str)) = some l := by
  unfold names
  induction l with
  | nil => rfl
  | cons a l ih =>
    simp only [List.map_cons, List.mapM_cons] at ih ⊢
    rw [ih]; rfl

theorem getAttr_of_get? {n : Dict Str Val} {k : Str} {v : Val} (h : get? k n = some v) : getAttr n k = v := by
  unfold getAttr; rw [h]; rfl

end Nxt.NodeData
