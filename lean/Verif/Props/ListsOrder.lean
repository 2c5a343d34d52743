import Verif.Props.Lists
/-!
# Property C15: merging onto part of the same order
-/
namespace Nxt.Props
open Lists
variable {α : Type} [DecidableEq α]

theorem insertIndex_part {src tgt a s done rest : List α} {x : α} (ht : tgt = done ++ x :: rest) (hs : src = a ++ s)
    (ha : a.length ≤ done.length) (hr : s.Sublist rest) (hn : rest.Nodup) : insertIndex src tgt done.length = done.length := by
  unfold insertIndex
  dsimp only
  split
  · split
    · rfl
    · rw [if_neg]
      rintro ⟨h1, h2, h3⟩
      rw [ht, hs, List.getElem?_append_right (by omega), List.getElem?_append_right (by omega)] at h3
      have e1 : done.length + 1 - done.length = 1 := by omega
      have e2 : done.length + 1 - a.length = (done.length - a.length) + 1 := by omega
      rw [e1, e2] at h3
      rw [ht] at h2
      cases rest with
      | nil => simp at h2
      | cons r rest =>
        cases s with
        | nil => simp at h3
        | cons y s =>
          simp only [List.getElem?_cons_succ, List.getElem?_cons_zero] at h3
          have hm : r ∈ s := List.mem_of_getElem? h3
          obtain ⟨hr1, hr2⟩ := List.nodup_cons.1 hn
          cases hr with
          | cons _ h => exact hr1 (h.subset (List.mem_cons_of_mem _ hm))
          | cons_cons _ h => exact hr1 (h.subset hm)
  · rfl

theorem mergeLoop_part (src tgt : List α) (hn : tgt.Nodup) : ∀ (rest done a s : List α), tgt = done ++ rest → src = a ++ s →
    a.Sublist done → s.Sublist rest → mergeLoop src tgt done.length rest (done ++ s) = tgt := by
  intro rest
  induction rest with
  | nil =>
    intro done a s ht hs _ hr
    rw [mergeLoop, ht, List.sublist_nil.1 hr]
  | cons x rest ih =>
    intro done a s ht hs ha hr
    have hn' := hn
    rw [ht] at hn'
    obtain ⟨hn1, hn2, hn3⟩ := List.nodup_append.1 hn'
    obtain ⟨hx, hn2⟩ := List.nodup_cons.1 hn2
    rw [mergeLoop]
    cases hr with
    | cons _ h =>
      have hxs : x ∉ src := by
        rw [hs]
        intro hm
        rcases List.mem_append.1 hm with hm | hm
        · exact hn3 x (ha.subset hm) x (by simp) rfl
        · exact hx (h.subset hm)
      rw [if_neg hxs, insertIndex_part ht hs ha.length_le h hn2]
      have := ih (done ++ [x]) a s (by rw [ht]; simp) hs (ha.trans (List.sublist_append_left _ _)) h
      rw [List.length_append, List.length_singleton] at this
      rw [← this]
      congr 1
      unfold insertAt
      simp
    | cons_cons _ h =>
      rename_i s
      rw [if_pos (by rw [hs]; simp)]
      have := ih (done ++ [x]) (a ++ [x]) s (by rw [ht]; simp) (by rw [hs]; simp) (ha.append_right _) h
      rw [List.length_append, List.length_singleton] at this
      rw [← this]
      congr 1
      simp

theorem sublist_all {b o : List α} (h : b.Sublist o) (hn : o.Nodup) (ha : ∀ x ∈ o, x ∈ b) : b = o := by
  induction h with
  | slnil => rfl
  | cons a h _ => exact absurd (h.subset (ha a (by simp))) (List.nodup_cons.1 hn).1
  | cons_cons a h ih =>
    obtain ⟨h1, h2⟩ := List.nodup_cons.1 hn
    rw [ih h2 fun x hx => (List.mem_cons.1 (ha x (List.mem_cons_of_mem _ hx))).resolve_left fun e => h1 (e ▸ hx)]

/-- C15: merged onto some of its own items, in their order, a list stays as it is. -/
theorem C15_part (base overlay : List α) (ho : overlay.Nodup) (h : base.Sublist overlay) : listMerger base overlay = overlay := by
  unfold listMerger
  split
  · assumption
  · dsimp only
    split
    · rename_i h1 h2
      exact absurd (sublist_all h ho h2) h1
    · have hb : (if ∀ x ∈ overlay, x ∉ base then base.filter (fun n => n ∉ overlay) else []) = [] := by
        split
        · rw [List.filter_eq_nil_iff]
          intro x hx
          simp [h.subset hx]
        · rfl
      rw [hb]
      show mergeLoop base overlay 0 overlay base = overlay
      exact mergeLoop_part base overlay ho overlay [] [] base rfl rfl (List.Sublist.refl _) h

/-- Two of four names. -/
example : listMerger "bd".toList "abcd".toList = "abcd".toList := C15_part _ _ (by decide) (by decide)

end Nxt.Props
