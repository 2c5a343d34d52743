import Verif.Model.Py
/-!
# Lemmas about the Python string built-ins of `Verif.Model.Py`
-/
namespace Nxt.Py

theorem isPrefixOf_iff {p s : Str} : p.isPrefixOf s = true ↔ ∃ t, s = p ++ t := by
  rw [List.isPrefixOf_iff_prefix]
  constructor
  · rintro ⟨t, h⟩; exact ⟨t, h.symm⟩
  · rintro ⟨t, h⟩; exact ⟨t, h.symm⟩

theorem startsWith_iff {s p : Str} : startsWith s p = true ↔ ∃ t, s = p ++ t := isPrefixOf_iff

theorem startsWith_append (p t : Str) : startsWith (p ++ t) p = true := startsWith_iff.2 ⟨t, rfl⟩

theorem partition?_some {sep s a b : Str} (hs : sep ≠ []) (h : partition? sep s = some (a, b)) :
    s = a ++ sep ++ b ∧ ∀ a' b', s = a' ++ sep ++ b' → a.length ≤ a'.length := by
  induction s generalizing a b with
  | nil => simp [partition?] at h
  | cons c cs ih =>
    rw [partition?] at h
    split at h
    · rename_i hp
      obtain ⟨t, ht⟩ := isPrefixOf_iff.1 hp
      simp only [Option.some.injEq, Prod.mk.injEq] at h
      obtain ⟨rfl, rfl⟩ := h
      refine ⟨?_, by simp⟩
      rw [ht]; simp
    · rename_i hp
      split at h
      · rename_i a0 b0 he
        simp only [Option.some.injEq, Prod.mk.injEq] at h
        obtain ⟨rfl, rfl⟩ := h
        obtain ⟨h1, h2⟩ := ih he
        refine ⟨by rw [h1]; simp, ?_⟩
        intro a' b' hab
        cases a' with
        | nil =>
          exfalso; apply hp
          exact isPrefixOf_iff.2 ⟨b', by simpa using hab⟩
        | cons x xs =>
          simp only [List.cons_append, List.cons.injEq] at hab
          have := h2 xs b' (by rw [hab.2])
          simp; exact this
      · simp at h

theorem partition?_none {sep s : Str} (hs : sep ≠ []) (h : partition? sep s = none) :
    ∀ a b, s ≠ a ++ sep ++ b := by
  induction s with
  | nil => intro a b hab; simp at hab; exact hs hab.2.1
  | cons c cs ih =>
    rw [partition?] at h
    split at h
    · simp at h
    · rename_i hp
      split at h
      · simp at h
      · rename_i he
        intro a b hab
        cases a with
        | nil => exact hp (isPrefixOf_iff.2 ⟨b, by simpa using hab⟩)
        | cons x xs =>
          simp only [List.cons_append, List.cons.injEq] at hab
          exact ih he xs b hab.2

/-- Two decompositions around the same separator with the same prefix length agree. -/
theorem decomp_unique {sep a b a' b' : Str} (h : a ++ sep ++ b = a' ++ sep ++ b')
    (hl : a.length = a'.length) : a = a' ∧ b = b' := by
  simp only [List.append_assoc] at h
  obtain ⟨h1, h2⟩ := List.append_inj h hl
  exact ⟨h1, (List.append_inj h2 rfl).2⟩

theorem partition?_eq {sep s a b : Str} (hs : sep ≠ []) (h : s = a ++ sep ++ b)
    (hmin : ∀ a' b', s = a' ++ sep ++ b' → a.length ≤ a'.length) :
    partition? sep s = some (a, b) := by
  cases hp : partition? sep s with
  | none => exact absurd h (partition?_none hs hp a b)
  | some ab =>
    obtain ⟨a0, b0⟩ := ab
    obtain ⟨h1, h2⟩ := partition?_some hs hp
    have hl : a0.length = a.length := Nat.le_antisymm (h2 a b h) (hmin a0 b0 h1)
    obtain ⟨rfl, rfl⟩ := decomp_unique (h1.symm.trans h) hl
    rfl

theorem rpartition?_some {sep s a b : Str} (hs : sep ≠ []) (h : rpartition? sep s = some (a, b)) :
    s = a ++ sep ++ b ∧ ∀ a' b', s = a' ++ sep ++ b' → a'.length ≤ a.length := by
  induction s generalizing a b with
  | nil => simp [rpartition?] at h
  | cons c cs ih =>
    rw [rpartition?] at h
    split at h
    · rename_i a0 b0 he
      simp only [Option.some.injEq, Prod.mk.injEq] at h
      obtain ⟨rfl, rfl⟩ := h
      obtain ⟨h1, h2⟩ := ih he
      refine ⟨by rw [h1]; simp, ?_⟩
      intro a' b' hab
      cases a' with
      | nil => simp
      | cons x xs =>
        simp only [List.cons_append, List.cons.injEq] at hab
        have := h2 xs b' hab.2
        simp; exact this
    · rename_i he
      split at h
      · rename_i hp
        obtain ⟨t, ht⟩ := isPrefixOf_iff.1 hp
        simp only [Option.some.injEq, Prod.mk.injEq] at h
        obtain ⟨rfl, rfl⟩ := h
        refine ⟨by rw [ht]; simp, ?_⟩
        intro a' b' hab
        cases a' with
        | nil => simp
        | cons x xs =>
          exfalso
          simp only [List.cons_append, List.cons.injEq] at hab
          -- `cs` contains `sep`, so the recursive call could not have failed
          clear ih ht hp
          have key : ∀ (s u v : Str), rpartition? sep s = none → s ≠ u ++ sep ++ v := by
            intro s
            induction s with
            | nil => intro u v _ h; simp at h; exact hs h.2.1
            | cons d ds ihd =>
              intro u v hn huv
              rw [rpartition?] at hn
              split at hn
              · simp at hn
              · rename_i hd
                cases u with
                | nil =>
                  have : sep.isPrefixOf (d :: ds) = true := isPrefixOf_iff.2 ⟨v, by simpa using huv⟩
                  rw [if_pos this] at hn; simp at hn
                | cons y ys =>
                  simp only [List.cons_append, List.cons.injEq] at huv
                  exact ihd ys v hd huv.2
          exact key cs xs b' he hab.2
      · simp at h

theorem rpartition?_none {sep s : Str} (hs : sep ≠ []) (h : rpartition? sep s = none) :
    ∀ a b, s ≠ a ++ sep ++ b := by
  induction s with
  | nil => intro a b hab; simp at hab; exact hs hab.2.1
  | cons c cs ih =>
    rw [rpartition?] at h
    split at h
    · simp at h
    · rename_i he
      split at h
      · simp at h
      · rename_i hp
        intro a b hab
        cases a with
        | nil => exact hp (isPrefixOf_iff.2 ⟨b, by simpa using hab⟩)
        | cons x xs =>
          simp only [List.cons_append, List.cons.injEq] at hab
          exact ih he xs b hab.2

theorem rpartition?_eq {sep s a b : Str} (hs : sep ≠ []) (h : s = a ++ sep ++ b)
    (hmax : ∀ a' b', s = a' ++ sep ++ b' → a'.length ≤ a.length) :
    rpartition? sep s = some (a, b) := by
  cases hp : rpartition? sep s with
  | none => exact absurd h (rpartition?_none hs hp a b)
  | some ab =>
    obtain ⟨a0, b0⟩ := ab
    obtain ⟨h1, h2⟩ := rpartition?_some hs hp
    have hl : a0.length = a.length := Nat.le_antisymm (hmax a0 b0 h1) (h2 a b h)
    obtain ⟨rfl, rfl⟩ := decomp_unique (h1.symm.trans h) hl
    rfl

/-! ### Single-character separators -/

theorem partition?_char {c : Char} {a b : Str} (h : c ∉ a) :
    partition? [c] (a ++ c :: b) = some (a, b) := by
  induction a with
  | nil => simp [partition?]
  | cons x xs ih =>
    simp only [List.mem_cons, not_or] at h
    simp only [List.cons_append, partition?, ih h.2]
    simp [h.1]

theorem partition?_char_none {c : Char} {s : Str} (h : c ∉ s) : partition? [c] s = none := by
  induction s with
  | nil => rfl
  | cons x xs ih =>
    simp only [List.mem_cons, not_or] at h
    simp [partition?, ih h.2, h.1]

theorem rpartition?_char_none {c : Char} {s : Str} (h : c ∉ s) : rpartition? [c] s = none := by
  induction s with
  | nil => rfl
  | cons x xs ih =>
    simp only [List.mem_cons, not_or] at h
    simp [rpartition?, ih h.2, h.1]

theorem rpartition?_char {c : Char} {a b : Str} (h : c ∉ b) :
    rpartition? [c] (a ++ c :: b) = some (a, b) := by
  induction a with
  | nil => simp [rpartition?, rpartition?_char_none h]
  | cons x xs ih => simp [rpartition?, ih]

theorem partition?_char_some {c : Char} {s a b : Str} (h : partition? [c] s = some (a, b)) :
    s = a ++ c :: b ∧ c ∉ a := by
  induction s generalizing a b with
  | nil => simp [partition?] at h
  | cons x xs ih =>
    rw [partition?] at h
    split at h
    · rename_i hp
      simp at hp
      simp only [Option.some.injEq, Prod.mk.injEq] at h
      obtain ⟨rfl, rfl⟩ := h
      simp [hp]
    · rename_i hp
      simp at hp
      split at h
      · rename_i a0 b0 he
        simp only [Option.some.injEq, Prod.mk.injEq] at h
        obtain ⟨rfl, rfl⟩ := h
        obtain ⟨h1, h2⟩ := ih he
        simp [h1, h2, hp]
      · simp at h

theorem rpartition?_char_some {c : Char} {s a b : Str} (h : rpartition? [c] s = some (a, b)) :
    s = a ++ c :: b ∧ c ∉ b := by
  induction s generalizing a b with
  | nil => simp [rpartition?] at h
  | cons x xs ih =>
    rw [rpartition?] at h
    split at h
    · rename_i a0 b0 he
      simp only [Option.some.injEq, Prod.mk.injEq] at h
      obtain ⟨rfl, rfl⟩ := h
      obtain ⟨h1, h2⟩ := ih he
      simp [h1, h2]
    · rename_i he
      split at h
      · rename_i hp
        simp at hp
        simp only [Option.some.injEq, Prod.mk.injEq] at h
        obtain ⟨rfl, rfl⟩ := h
        refine ⟨by simp [hp], ?_⟩
        intro hc
        simp at hc
        obtain ⟨u, v, huv⟩ := List.append_of_mem hc
        exact rpartition?_none (by simp) he u v (by simpa using huv)
      · simp at h

theorem rpartition?_char_none_iff {c : Char} {s : Str} : rpartition? [c] s = none ↔ c ∉ s := by
  constructor
  · intro h hc
    obtain ⟨u, v, huv⟩ := List.append_of_mem hc
    exact rpartition?_none (by simp) h u v (by simpa using huv)
  · exact rpartition?_char_none

theorem partition?_char_none_iff {c : Char} {s : Str} : partition? [c] s = none ↔ c ∉ s := by
  constructor
  · intro h hc
    obtain ⟨u, v, huv⟩ := List.append_of_mem hc
    exact partition?_none (by simp) h u v (by simpa using huv)
  · exact partition?_char_none

theorem contains_iff {s sub : Str} : contains s sub = true ↔ ∃ a b, s = a ++ sub ++ b := by
  induction s with
  | nil =>
    simp only [contains, List.isEmpty_iff]
    constructor
    · rintro rfl; exact ⟨[], [], rfl⟩
    · rintro ⟨a, b, h⟩; simp at h; exact h.2.1
  | cons c cs ih =>
    simp only [contains, Bool.or_eq_true, ih]
    constructor
    · rintro (h | ⟨a, b, h⟩)
      · obtain ⟨t, ht⟩ := isPrefixOf_iff.1 h
        exact ⟨[], t, by simpa using ht⟩
      · exact ⟨c :: a, b, by simp [h]⟩
    · rintro ⟨a, b, h⟩
      cases a with
      | nil => exact .inl (isPrefixOf_iff.2 ⟨b, by simpa using h⟩)
      | cons x xs =>
        simp only [List.cons_append, List.cons.injEq] at h
        exact .inr ⟨xs, b, h.2⟩

/-! ### split / join -/

theorem split_ne_nil (c : Char) (s : Str) : split c s ≠ [] := by
  cases s with
  | nil => simp [split]
  | cons x xs =>
    rw [split]; split
    · simp
    · split <;> simp

theorem split_of_not_mem {c : Char} {s : Str} (h : c ∉ s) : split c s = [s] := by
  induction s with
  | nil => rfl
  | cons x xs ih =>
    simp only [List.mem_cons, not_or] at h
    rw [split, if_neg (fun e => h.1 e.symm), ih h.2]

theorem split_append_sep {c : Char} {a b : Str} (h : c ∉ a) :
    split c (a ++ c :: b) = a :: split c b := by
  induction a with
  | nil => simp [split]
  | cons x xs ih =>
    simp only [List.mem_cons, not_or] at h
    rw [List.cons_append, split, if_neg (fun e => h.1 e.symm), ih h.2]

/-- The last part of a text cut at a separator. -/
theorem split_append_last {c : Char} {u y : Str} (h : c ∉ y) : split c (u ++ c :: y) = split c u ++ [y] := by
  by_cases hu : c ∈ u
  · obtain ⟨a, b, rfl, ha⟩ := List.eq_append_cons_of_mem hu
    have hlt : b.length < (a ++ c :: b).length := by simp; omega
    rw [List.append_assoc, List.cons_append, split_append_sep ha, split_append_last h, split_append_sep ha, List.cons_append]
  · rw [split_append_sep hu, split_of_not_mem h, split_of_not_mem hu]; rfl
termination_by u.length

theorem join_split (c : Char) (s : Str) : join [c] (split c s) = s := by
  induction s with
  | nil => rfl
  | cons x xs ih =>
    rw [split]
    split
    · rename_i hx
      subst hx
      cases hsp : split x xs with
      | nil => exact absurd hsp (split_ne_nil _ _)
      | cons w ws => rw [hsp] at ih; simp [join, ih]
    · cases hsp : split c xs with
      | nil => exact absurd hsp (split_ne_nil _ _)
      | cons w ws =>
        rw [hsp] at ih
        cases ws with
        | nil => simp [join] at ih ⊢; exact ih
        | cons w2 ws => simp [join] at ih ⊢; exact ih

theorem split_join {c : Char} {ws : List Str} (hne : ws ≠ []) (h : ∀ w ∈ ws, c ∉ w) :
    split c (join [c] ws) = ws := by
  induction ws with
  | nil => exact absurd rfl hne
  | cons w ws ih =>
    cases ws with
    | nil => simpa [join] using split_of_not_mem (h w (by simp))
    | cons w2 ws =>
      have : join [c] (w :: w2 :: ws) = w ++ c :: join [c] (w2 :: ws) := by simp [join]
      rw [this, split_append_sep (h w (by simp)), ih (by simp) (fun x hx => h x (by simp [hx]))]

theorem not_mem_of_mem_split {c : Char} {s w : Str} (h : w ∈ split c s) : c ∉ w := by
  induction s generalizing w with
  | nil => simp [split] at h; simp [h]
  | cons x xs ih =>
    rw [split] at h
    split at h
    · simp at h
      rcases h with rfl | h
      · simp
      · exact ih h
    · rename_i hx
      cases hsp : split c xs with
      | nil => exact absurd hsp (split_ne_nil _ _)
      | cons w2 ws =>
        rw [hsp] at h ih
        simp at h
        rcases h with rfl | h
        · have := ih (w := w2) (by simp)
          simp [this]; exact fun e => hx e.symm
        · exact ih (by simp [h])

end Nxt.Py
