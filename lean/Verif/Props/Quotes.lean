import Verif.Spec.Quotes
/-!
# C162: texts in quotes
-/
namespace Nxt.Props
open Spec Quotes

/-- C162: one text only is meant by a literal. -/
theorem C162_one_meaning {s s' t : Str} (h : LitText s t) (h' : LitText s' t) : s = s' := by
  cases h with
  | short q s hq hs =>
    generalize ht : q :: s ++ [q] = t at h'
    cases h' with
    | short q' s' hq' hs' =>
      rw [List.cons_append, List.cons_append] at ht
      obtain ⟨rfl, ht⟩ := List.cons.inj ht
      exact List.append_cancel_right ht
    | long q' s' hq' hs' hn =>
      rw [List.cons_append] at ht
      simp only [List.cons_append, List.nil_append] at ht
      obtain ⟨rfl, ht⟩ := List.cons.inj ht
      cases s with
      | nil => simp at ht
      | cons c s => exact absurd (List.cons.inj ht).1 (hs c List.mem_cons_self).1
  | long q s hq hs hn =>
    generalize ht : [q, q, q] ++ s ++ [q, q, q] = t at h'
    cases h' with
    | short q' s' hq' hs' =>
      simp only [List.cons_append, List.nil_append] at ht
      obtain ⟨rfl, ht⟩ := List.cons.inj ht
      cases s' with
      | nil => simp at ht
      | cons c s' => exact absurd (List.cons.inj ht).1.symm (hs' c List.mem_cons_self).1
    | long q' s' hq' hs' hn' =>
      simp only [List.cons_append, List.nil_append, List.append_assoc] at ht
      obtain ⟨rfl, ht⟩ := List.cons.inj ht
      simp only [List.cons.injEq, true_and] at ht
      exact List.append_cancel_right ht

/-- C162: with a mark of one character the text in quotes is a literal of the text just if the mark, the backslash and
the end of a line do not occur in it: nothing is escaped. -/
theorem C162_short (s : Str) (i : Int) (q : Char) (hi : i = 0 ∧ q = '\'' ∨ i = 1 ∧ q = '"') :
    ∃ t, w s (.number i) = some t ∧ (LitText s t ↔ ∀ c ∈ s, c ≠ q ∧ c ≠ '\\' ∧ c ≠ '\n') := by
  have hw : w s (.number i) = some (q :: s ++ [q]) := by rcases hi with ⟨rfl, rfl⟩ | ⟨rfl, rfl⟩ <;> rfl
  have hq : q = '\'' ∨ q = '"' := hi.imp And.right And.right
  refine ⟨_, hw, fun h => ?_, fun h => .short q s hq h⟩
  generalize ht : q :: s ++ [q] = t at h
  cases h with
  | short q' _ hq' hs' =>
    rw [List.cons_append, List.cons_append] at ht
    obtain ⟨rfl, -⟩ := List.cons.inj ht
    exact hs'
  | long q' _ hq' hs' hn =>
    have := congrArg List.length ht
    simp at this

/-- C162: with a threefold mark, lines do not matter; the text in quotes is a literal of the text just if there is no
backslash and no threefold mark which ends it early, as one does to which the end of the text belongs. -/
theorem C162_long (s : Str) (i : Int) (q : Char) (hi : i = 2 ∧ q = '\'' ∨ i = 3 ∧ q = '"') :
    ∃ t, w s (.number i) = some t ∧
      (LitText s t ↔ (∀ c ∈ s, c ≠ '\\') ∧ ¬∃ a b, b ≠ [] ∧ s ++ [q, q, q] = a ++ [q, q, q] ++ b) := by
  have hw : w s (.number i) = some ([q, q, q] ++ s ++ [q, q, q]) := by rcases hi with ⟨rfl, rfl⟩ | ⟨rfl, rfl⟩ <;> rfl
  have hq : q = '\'' ∨ q = '"' := hi.imp And.right And.right
  refine ⟨_, hw, fun h => ?_, fun h => .long q s hq h.1 h.2⟩
  generalize ht : [q, q, q] ++ s ++ [q, q, q] = t at h
  cases h with
  | short q' _ hq' hs' =>
    have := congrArg List.length ht
    simp at this
    omega
  | long q' _ hq' hs' hn =>
    simp only [List.cons_append, List.nil_append] at ht
    obtain ⟨rfl, -⟩ := List.cons.inj ht
    exact ⟨hs', hn⟩

/-- C162: a text can be given as the mark; numbers from minus four to three are taken, all others raise. -/
theorem C162_taken (s : Str) :
    (∀ m, w s (.text m) = some (m ++ s ++ m)) ∧ (∀ i, w s (.number i) = none ↔ i < -4 ∨ 3 < i) := by
  refine ⟨fun m => rfl, fun i => ?_⟩
  have : w s (.number i) = none ↔ index QUOTE_TYPES i = none := by
    unfold w
    dsimp only
    generalize index QUOTE_TYPES i = o
    cases o <;> simp
  rw [this]
  unfold index QUOTE_TYPES
  simp only [List.length_cons, List.length_nil]
  by_cases h0 : 0 ≤ i
  · rw [if_pos h0, List.getElem?_eq_none_iff]
    simp only [List.length_cons, List.length_nil]
    omega
  · rw [if_neg h0]
    split
    · rw [List.getElem?_eq_none_iff]
      simp only [List.length_cons, List.length_nil]
      omega
    · simp only [true_iff]
      omega

/-- C162, violated: no number has the mark the documentation has for it; the last of them raises. -/
theorem C162_documented_violation (s : Str) (i : Int) (m : Str) (h : documentedMark i = some m) :
    w s (.number i) ≠ some (m ++ s ++ m) ∧ w s (.number 4) = none := by
  refine ⟨?_, rfl⟩
  have : i = 1 ∨ i = 2 ∨ i = 3 ∨ i = 4 := by
    unfold documentedMark at h
    split at h <;> simp_all
  rcases this with rfl | rfl | rfl | rfl <;> obtain rfl := Option.some.inj h
  · simp [w, index, QUOTE_TYPES]
  · simp [w, index, QUOTE_TYPES]
  · simp [w, index, QUOTE_TYPES]
  · simp [w, index, QUOTE_TYPES]

/-- A text with a mark in it is no literal in these marks and one in the others; one of two lines is a literal in
threefold marks only. -/
example : ¬(∀ c ∈ "it's".toList, c ≠ '\'' ∧ c ≠ '\\' ∧ c ≠ '\n') ∧ (∀ c ∈ "it's".toList, c ≠ '"' ∧ c ≠ '\\' ∧ c ≠ '\n') ∧
    ¬(∀ c ∈ "a\nb".toList, c ≠ '"' ∧ c ≠ '\\' ∧ c ≠ '\n') ∧
    LitText "a\nb".toList "'''a\nb'''".toList := by
  refine ⟨by decide, by decide, by decide, .long '\'' "a\nb".toList (.inl rfl) (by decide) ?_⟩
  rintro ⟨a, b, hb, h⟩
  have hl := congrArg List.length h
  simp at hl
  match a, hl with
  | [], _ => simp at h
  | [x], _ => simp at h
  | [x, y], _ => simp at h
  | x :: y :: z :: a, hl =>
    cases b with
    | nil => exact hb rfl
    | cons _ _ => simp at hl; omega

end Nxt.Props
