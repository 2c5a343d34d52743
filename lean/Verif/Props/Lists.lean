import Verif.Lemmas.Lists
/-!
# Properties C15–C17: merging and sorting lists
-/
namespace Nxt.Props
open Lists
variable {α : Type} [DecidableEq α]

/-! ## C15 -/

/-- C15: the merge of two duplicate-free lists is duplicate-free and is their union. -/
theorem C15_union_nodup (base overlay : List α) (hb : base.Nodup) (ho : overlay.Nodup) :
    (listMerger base overlay).Nodup ∧
    ∀ x, x ∈ listMerger base overlay ↔ x ∈ base ∨ x ∈ overlay := by
  unfold listMerger
  split
  · rename_i h; subst h; exact ⟨hb, by simp⟩
  · simp only
    split
    · rename_i h
      refine ⟨hb, fun x => ⟨.inl, ?_⟩⟩
      rintro (h' | h')
      · exact h'
      · exact h x h'
    · generalize hos : (if ∀ x ∈ overlay, x ∉ base then base.filter (fun n => n ∉ overlay) else []) = os
      have hm := mergeLoop_perm base overlay 0 overlay base
      have hmem : ∀ x ∈ os, x ∈ base := by
        intro x hx
        rw [← hos] at hx
        split at hx
        · exact (List.mem_filter.1 hx).1
        · simp at hx
      have hp := moveFront_perm os.reverse (mergeLoop base overlay 0 overlay base) (by
        intro x hx
        exact hm.mem_iff.2 (List.mem_append.2 (.inr (hmem x (List.mem_reverse.1 hx)))))
      have hp2 := hp.trans hm
      constructor
      · rw [hp2.nodup_iff, List.nodup_append]
        refine ⟨ho.filter _, hb, ?_⟩
        intro x hx y hy he
        have := (List.mem_filter.1 hx).2
        simp at this
        exact this (he ▸ hy)
      · intro x
        rw [hp2.mem_iff, List.mem_append, List.mem_filter]
        simp only [decide_eq_true_eq]
        constructor
        · rintro (h | h)
          · exact .inr h.1
          · exact .inl h
        · rintro (h | h)
          · exact .inr h
          · by_cases hx : x ∈ base
            · exact .inr hx
            · exact .inl ⟨h, hx⟩

/-- C15: with nothing in common the overlay is put behind the base, both in their own order. -/
theorem C15_disjoint (base overlay : List α) (hb : base.Nodup) (h : ∀ x ∈ overlay, x ∉ base) :
    listMerger base overlay = base ++ overlay := by
  cases overlay with
  | nil => simp [listMerger]
  | cons o os =>
    unfold listMerger
    have h1 : base ≠ o :: os := by rintro rfl; exact h o (by simp) (by simp)
    have h2 : ¬ ∀ x ∈ o :: os, x ∈ base := fun h' => h o (by simp) (h' o (by simp))
    rw [if_neg h1]
    simp only
    rw [if_neg h2, if_pos h]
    have e : base.filter (fun n => decide (n ∉ o :: os)) = base := by
      rw [List.filter_eq_self]
      intro a ha
      simp only [decide_eq_true_eq]
      exact fun h' => h a h' ha
    rw [e]
    have := mergeLoop_disjoint base (o :: os) [] (o :: os) base rfl h
    simp only [List.length_nil, List.nil_append] at this
    rw [this]
    exact moveFront_base base (o :: os) hb h

/-- C15: the items of the base keep their relative order. -/
theorem C15_base_order (base overlay : List α) (hb : base.Nodup) :
    base.Sublist (listMerger base overlay) := by
  by_cases h : ∀ x ∈ overlay, x ∉ base
  · rw [C15_disjoint base overlay hb h]; exact List.sublist_append_left _ _
  · unfold listMerger
    split
    · exact List.Sublist.refl _
    · simp only
      split
      · exact List.Sublist.refl _
      · exact sublist_mergeLoop base overlay 0 overlay base

/-- C15: an overlay without new items changes nothing. -/
theorem C15_contained (base overlay : List α) (h : ∀ x ∈ overlay, x ∈ base) :
    listMerger base overlay = base := by
  unfold listMerger
  split
  · rfl
  · simp only [if_pos h]

/-- C15: merging again with the same overlay changes nothing. -/
theorem C15_idempotent (base overlay : List α) (hb : base.Nodup) (ho : overlay.Nodup) :
    listMerger (listMerger base overlay) overlay = listMerger base overlay :=
  C15_contained _ _ (fun x hx => ((C15_union_nodup base overlay hb ho).2 x).2 (.inr hx))

/-- C15: the order of the overlay is not kept: `x` stands before `y` in the overlay and behind it in
the result. -/
theorem C15_overlay_order_lost :
    listMerger "abcdef".toList "baxdy".toList = "abcdyexf".toList := by decide

example : "ab".toList.Nodup ∧ "aj".toList.Nodup ∧
    listMerger "ab".toList "aj".toList = "ajb".toList ∧
    listMerger "ab".toList "xy".toList = "abxy".toList := by decide

/-! ## C16 -/

omit [DecidableEq α] in
/-- C16: the hand-written sort is a stable sort by the key. -/
theorem C16_stable_sort (key : α → Nat) (l : List α) :
    (sortMulti key l).Perm l ∧ (sortMulti key l).Pairwise (fun a b => key a ≤ key b) ∧
    ∀ k, (sortMulti key l).filter (fun z => key z = k) = l.filter (fun z => key z = k) := by
  have := bubbleLoop_spec key l (l.length + 1) 0 l [] (by simp) (by simp) (by simp) (by simp)
    (by simp) (by omega)
  simpa [sortMulti] using this

example : sortMulti List.length ["ccc".toList, "a".toList, "bb".toList, "d".toList]
    = ["a".toList, "d".toList, "bb".toList, "ccc".toList] := by decide

/-! ## C17 -/

/-- C17: the composite has exactly the items of both lists, each once, whatever the duplicates in
the inputs. -/
theorem C17_composite (l1 l2 : List α) :
    (compositeLists l1 l2).Nodup ∧ ∀ x, x ∈ compositeLists l1 l2 ↔ x ∈ l1 ∨ x ∈ l2 := by
  obtain ⟨h1, h2, -⟩ := compositeLoop_spec l1 0 l1 [] (by simp)
  obtain ⟨h3, h4, -⟩ := compositeLoop_spec l2 0 l2 _ h1
  refine ⟨h3, fun x => ?_⟩
  show x ∈ compositeLoop l2 0 l2 _ ↔ _
  rw [h4, h2]; simp

/-- C17: the order of a duplicate-free first list is kept. -/
theorem C17_first_order (l1 l2 : List α) (h : l1.Nodup) : l1.Sublist (compositeLists l1 l2) := by
  have e : compositeLoop l1 0 l1 [] = l1 := by
    simpa using compositeLoop_first l1 l1 [] (by simpa using h)
  have := (compositeLoop_spec l2 0 l2 l1 h).2.2
  unfold compositeLists
  rw [e]; exact this

example : compositeLists "abc".toList "axc".toList = "axbc".toList ∧
    compositeLists "aab".toList "xx".toList = "axb".toList := by decide

end Nxt.Props
