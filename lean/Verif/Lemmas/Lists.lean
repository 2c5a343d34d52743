import Verif.Model.Lists
/-!
# Lemmas about the list helpers
-/
namespace Nxt.Lists
variable {α : Type} [DecidableEq α]

omit [DecidableEq α] in
theorem insertAt_perm (l : List α) (i : Nat) (x : α) : (insertAt l i x).Perm (x :: l) := by
  unfold insertAt
  have := List.perm_middle (a := x) (l₁ := l.take i) (l₂ := l.drop i)
  rwa [List.take_append_drop] at this

omit [DecidableEq α] in
theorem sublist_insertAt (l : List α) (i : Nat) (x : α) : l.Sublist (insertAt l i x) := by
  unfold insertAt
  conv => lhs; rw [← List.take_append_drop i l]
  exact List.Sublist.append_left (List.sublist_cons_self x _) _

theorem mergeLoop_perm (src tgt : List α) (idx : Nat) (rest merged : List α) :
    (mergeLoop src tgt idx rest merged).Perm (rest.filter (fun x => x ∉ src) ++ merged) := by
  induction rest generalizing idx merged with
  | nil => simp [mergeLoop]
  | cons x xs ih =>
    rw [mergeLoop]
    by_cases h : x ∈ src
    · rw [if_pos h]
      simpa [List.filter_cons, h] using ih (idx + 1) merged
    · rw [if_neg h]
      refine (ih _ _).trans ?_
      rw [List.filter_cons, if_pos (by simp [h])]
      refine ((insertAt_perm merged _ x).append_left _).trans ?_
      exact List.perm_middle

theorem sublist_mergeLoop (src tgt : List α) (idx : Nat) (rest merged : List α) :
    merged.Sublist (mergeLoop src tgt idx rest merged) := by
  induction rest generalizing idx merged with
  | nil => exact List.Sublist.refl _
  | cons x xs ih =>
    rw [mergeLoop]
    split
    · exact ih _ _
    · exact (sublist_insertAt _ _ _).trans (ih _ _)

theorem moveFront_perm (xs merged : List α) (hx : ∀ x ∈ xs, x ∈ merged) :
    (moveFront xs merged).Perm merged := by
  induction xs generalizing merged with
  | nil => exact List.Perm.refl _
  | cons x xs ih =>
    rw [moveFront]
    have h1 : x ∈ merged := hx x (by simp)
    have h2 : (x :: merged.erase x).Perm merged := (List.perm_cons_erase h1).symm
    refine (ih _ ?_).trans h2
    intro y hy
    exact h2.mem_iff.2 (hx y (by simp [hy]))

/-- With no common items every overlay item goes to its own index. -/
theorem mergeLoop_disjoint (src tgt done rest base : List α)
    (ht : tgt = done ++ rest) (hd : ∀ x ∈ tgt, x ∉ src) :
    mergeLoop src tgt done.length rest (done ++ base) = tgt ++ base := by
  induction rest generalizing done with
  | nil => simp [mergeLoop, ht]
  | cons x xs ih =>
    have hx : x ∉ src := hd x (by rw [ht]; simp)
    rw [mergeLoop, if_neg hx]
    have hne : ∀ k, k < src.length → k < tgt.length → src[k]? ≠ tgt[k]? := by
      intro k h1 h2 he
      rw [List.getElem?_eq_getElem h1, List.getElem?_eq_getElem h2] at he
      simp only [Option.some.injEq] at he
      exact hd _ (List.getElem_mem h2) (he ▸ List.getElem_mem h1)
    have hidx : insertIndex src tgt done.length = done.length := by
      unfold insertIndex
      split
      · rename_i hl
        have hl2 : done.length < tgt.length := by rw [ht]; simp
        simp only
        rw [if_neg (hne _ (by omega) (by omega)), if_neg]
        rintro ⟨h1, h2, h3⟩
        exact hne _ h1 h2 h3
      · rfl
    rw [hidx]
    have e : insertAt (done ++ base) done.length x = (done ++ [x]) ++ base := by
      simp [insertAt]
    rw [e]
    have := ih (done ++ [x]) (by rw [ht]; simp)
    simpa using this

theorem moveFront_base (base over : List α) (hb : base.Nodup) (hd : ∀ x ∈ over, x ∉ base) :
    moveFront base.reverse (over ++ base) = base ++ over := by
  -- generalise: what is moved already stands in front
  have key : ∀ (todo moved : List α), (todo.reverse ++ moved).Nodup →
      (∀ x ∈ over, x ∉ todo.reverse ++ moved) →
      moveFront todo (moved ++ (over ++ todo.reverse)) = todo.reverse ++ moved ++ over := by
    intro todo
    induction todo with
    | nil => intro moved _ _; simp [moveFront]
    | cons x xs ih =>
      intro moved h1 h2
      rw [moveFront]
      have hnm : x ∉ moved := by
        intro hm
        rw [List.nodup_append] at h1
        exact h1.2.2 x (by simp) x hm rfl
      have hno : x ∉ over := fun h => h2 x h (by simp)
      have hnx : x ∉ xs.reverse := by
        intro hm
        rw [List.nodup_append, List.reverse_cons, List.nodup_append] at h1
        exact h1.1.2.2 x hm x (by simp) rfl
      have e : (moved ++ (over ++ (x :: xs).reverse)).erase x = moved ++ (over ++ xs.reverse) := by
        rw [List.erase_append_right _ hnm, List.erase_append_right _ hno, List.reverse_cons,
          List.erase_append_right _ hnx]
        simp
      rw [e]
      have h1' : (xs.reverse ++ (x :: moved)).Nodup := by simpa using h1
      have := ih (x :: moved) h1' (by intro y hy; have := h2 y hy; simpa using this)
      simpa using this
  have := key base.reverse [] (by simpa using hb) (by simpa using hd)
  simpa using this

/-! ### composite -/

theorem compositeLoop_spec (all : List α) (idx : Nat) (rest comp : List α) (h : comp.Nodup) :
    (compositeLoop all idx rest comp).Nodup ∧
    (∀ x, x ∈ compositeLoop all idx rest comp ↔ x ∈ comp ∨ x ∈ rest) ∧
    comp.Sublist (compositeLoop all idx rest comp) := by
  induction rest generalizing idx comp with
  | nil => simp [compositeLoop, h]
  | cons x xs ih =>
    rw [compositeLoop]
    by_cases hx : x ∈ comp
    · rw [if_pos hx]
      obtain ⟨h1, h2, h3⟩ := ih (idx + 1) comp h
      refine ⟨h1, ?_, h3⟩
      intro y; rw [h2]; simp only [List.mem_cons]
      constructor
      · rintro (h | h)
        · exact .inl h
        · exact .inr (.inr h)
      · rintro (h | rfl | h)
        · exact .inl h
        · exact .inl hx
        · exact .inr h
    · rw [if_neg hx]
      have step : ∀ comp' : List α, comp'.Perm (x :: comp) → comp.Sublist comp' →
          (compositeLoop all (idx + 1) xs comp').Nodup ∧
          (∀ y, y ∈ compositeLoop all (idx + 1) xs comp' ↔ y ∈ comp ∨ y ∈ x :: xs) ∧
          comp.Sublist (compositeLoop all (idx + 1) xs comp') := by
        intro comp' hp hs
        have hn : comp'.Nodup := hp.nodup_iff.2 (List.nodup_cons.2 ⟨hx, h⟩)
        obtain ⟨h1, h2, h3⟩ := ih (idx + 1) comp' hn
        refine ⟨h1, ?_, hs.trans h3⟩
        intro y
        rw [h2, hp.mem_iff]
        simp only [List.mem_cons]
        constructor
        · rintro ((h | h) | h)
          · exact .inr (.inl h)
          · exact .inl h
          · exact .inr (.inr h)
        · rintro (h | h | h)
          · exact .inl (.inr h)
          · exact .inl (.inl h)
          · exact .inr h
      split
      · exact step _ (insertAt_perm _ _ _) (sublist_insertAt _ _ _)
      · exact step _ (List.perm_append_comm) (List.sublist_append_left _ _)

/-- On a duplicate-free list the first round appends. -/
theorem compositeLoop_first (all rest done : List α) (h : (done ++ rest).Nodup) :
    compositeLoop all done.length rest done = done ++ rest := by
  induction rest generalizing done with
  | nil => simp [compositeLoop]
  | cons x xs ih =>
    have hx : x ∉ done := by
      intro hm
      rw [List.nodup_append] at h
      exact h.2.2 x hm x (by simp) rfl
    rw [compositeLoop, if_neg hx, if_neg (by omega)]
    have := ih (done ++ [x]) (by simpa using h)
    simpa using this

/-! ### bubble sort -/

omit [DecidableEq α] in
/-- A full pass over `x :: l` brings a maximal entry to the end; nothing behind is touched. -/
theorem bubblePass_spec (key : α → Nat) (x : α) (l suf : List α) :
    ∃ m y, bubblePass key l.length (x :: l ++ suf) = m ++ y :: suf ∧ (m ++ [y]).Perm (x :: l) ∧
      (∀ z ∈ m, key z ≤ key y) ∧
      ∀ k, (m ++ [y]).filter (fun z => key z = k) = (x :: l).filter (fun z => key z = k) := by
  induction l generalizing x with
  | nil => exact ⟨[], x, by simp [bubblePass], by simp, by simp, by simp⟩
  | cons a l ih =>
    simp only [List.length_cons, List.cons_append, bubblePass]
    split
    · rename_i hlt
      obtain ⟨m, y, h1, h2, h3, h4⟩ := ih x
      rw [List.cons_append] at h1
      refine ⟨a :: m, y, by rw [h1]; rfl, ?_, ?_, ?_⟩
      · exact (List.Perm.cons a h2).trans (List.Perm.swap _ _ _)
      · intro z hz
        rcases List.mem_cons.1 hz with rfl | hz
        · have hx : x ∈ m ++ [y] := h2.mem_iff.2 (by simp)
          rw [List.mem_append, List.mem_singleton] at hx
          rcases hx with hx | rfl
          · have := h3 x hx; omega
          · omega
        · exact h3 z hz
      · intro k
        rw [List.cons_append, List.filter_cons, h4 k]
        simp only [List.filter_cons]
        by_cases ha : key a = k
        · have : key x ≠ k := by omega
          simp [ha, this]
        · simp [ha]
    · rename_i hlt
      obtain ⟨m, y, h1, h2, h3, h4⟩ := ih a
      rw [List.cons_append] at h1
      refine ⟨x :: m, y, by rw [h1]; rfl, ?_, ?_, ?_⟩
      · exact List.Perm.cons x h2
      · intro z hz
        rcases List.mem_cons.1 hz with rfl | hz
        · have hx : a ∈ m ++ [y] := h2.mem_iff.2 (by simp)
          rw [List.mem_append, List.mem_singleton] at hx
          rcases hx with hx | rfl
          · have := h3 a hx; omega
          · omega
        · exact h3 z hz
      · intro k
        rw [List.cons_append, List.filter_cons, h4 k]
        simp [List.filter_cons]

omit [DecidableEq α] in
theorem bubblePass_zero (key : α → Nat) (l : List α) : bubblePass key 0 l = l := by
  cases l with
  | nil => rfl
  | cons a l => cases l <;> rfl

omit [DecidableEq α] in
theorem bubbleLoop_spec (key : α → Nat) (orig : List α) (n i : Nat) (pre suf : List α)
    (hp : (pre ++ suf).Perm orig) (hl : pre.length + i = orig.length ∨ (pre = [] ∧ orig.length ≤ i))
    (hs : suf.Pairwise (fun a b => key a ≤ key b)) (hle : ∀ a ∈ pre, ∀ b ∈ suf, key a ≤ key b)
    (hf : ∀ k, (pre ++ suf).filter (fun z => key z = k) = orig.filter (fun z => key z = k))
    (hn : pre.length ≤ n) :
    (bubbleLoop key orig.length n i (pre ++ suf)).Perm orig ∧
    (bubbleLoop key orig.length n i (pre ++ suf)).Pairwise (fun a b => key a ≤ key b) ∧
    ∀ k, (bubbleLoop key orig.length n i (pre ++ suf)).filter (fun z => key z = k)
      = orig.filter (fun z => key z = k) := by
  induction n generalizing i pre suf with
  | zero =>
    have : pre = [] := List.length_eq_zero_iff.1 (by omega)
    subst this
    exact ⟨hp, by simpa [bubbleLoop] using hs, hf⟩
  | succ n ih =>
    rw [bubbleLoop]
    cases pre with
    | nil =>
      have : orig.length - i - 1 = 0 := by
        rcases hl with h | h
        · simp at h; omega
        · omega
      rw [this, bubblePass_zero]
      exact ih (i + 1) [] suf hp (.inr ⟨rfl, by
        rcases hl with h | h
        · simp at h; omega
        · omega⟩) hs hle hf (by simp)
    | cons x l =>
      have hb : orig.length - i - 1 = l.length := by
        rcases hl with h | h
        · simp at h; omega
        · exact absurd h.1 (by simp)
      obtain ⟨m, y, h1, h2, h3, h4⟩ := bubblePass_spec key x l suf
      rw [hb, h1]
      have hy : y ∈ x :: l := h2.mem_iff.1 (by simp)
      have hlen : m.length + 1 = (x :: l).length := by
        have := h2.length_eq; simpa using this
      refine ih (i + 1) m (y :: suf) ?_ ?_ ?_ ?_ ?_ ?_
      · have : (m ++ y :: suf).Perm ((x :: l) ++ suf) := by
          have := h2.append_right suf
          simpa using this
        exact this.trans hp
      · left
        rcases hl with h | h
        · omega
        · exact absurd h.1 (by simp)
      · exact List.pairwise_cons.2 ⟨fun b hb => hle y hy b hb, hs⟩
      · intro a ha b hb
        rcases List.mem_cons.1 hb with rfl | hb
        · exact h3 a ha
        · exact hle a (h2.mem_iff.1 (by simp [ha])) b hb
      · intro k
        rw [← hf k]
        have e : m ++ y :: suf = (m ++ [y]) ++ suf := by simp
        rw [e, List.filter_append, h4 k, ← List.filter_append]
      · simp at hn hlen; omega

end Nxt.Lists
