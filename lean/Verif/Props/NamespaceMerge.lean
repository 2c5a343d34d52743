import Verif.Model.NamespaceMerge
import Verif.Spec.NamespaceMerge
/-!
# Property C133: merging namespaces
-/
namespace Nxt.Props
open Spec NamespaceMerge

namespace Merging

theorem foldl_range_none {β : Type} (f : β → Nat → β) (n : Nat) (h : ∀ b i, i < n → f b i = b) (b : β) :
    (List.range n).foldl f b = b := by
  induction n with
  | zero => rfl
  | succ n ih =>
    rw [List.range_succ, List.foldl_append, ih (fun b i hi => h b i (by omega))]
    exact h b n (by omega)

theorem parent_take (s t : List Str) {k : Nat} (hk : k < t.length) : (parentOf s t).take k = t.take k := by
  unfold parentOf
  split
  · rw [List.dropLast_eq_take, List.take_take, Nat.min_eq_left (by omega)]
  · rfl

/-- What the loop finds. -/
theorem scan_eq (s t : List Str) (hs : 2 ≤ s.length) :
    scan s t = if Overlaps s t then (t ++ s.getLast?.toList, true) else (parentOf s t, false) := by
  have hb : beginOf s = 1 := by unfold beginOf; rw [if_pos (by omega)]
  unfold scan
  rw [hb]
  simp only []
  have hsfx : s.drop 1 = s.tail := by cases s <;> rfl
  have hcut : cutOf (s.drop 1) 1 = s.tail.dropLast := by rw [hsfx]; rfl
  rw [hcut, hsfx]
  have hl : s.tail.length = s.length - 1 := by simp
  have hlc : s.tail.dropLast.length = s.length - 2 := by simp; omega
  have hmatch : ∀ i, i < t.length → (t.drop i).take s.tail.length = s.tail.dropLast →
      t.length - i = s.length - 2 ∧ t.drop i = s.tail.dropLast := by
    intro i hi h
    have h1 := congrArg List.length h
    rw [List.length_take, List.length_drop, hl, hlc] at h1
    have h2 : t.length - i = s.length - 2 := by omega
    refine ⟨h2, ?_⟩
    rw [List.take_of_length_le (by rw [List.length_drop]; omega)] at h
    exact h
  by_cases ho : Overlaps s t
  · rw [if_pos ho]
    obtain ⟨h0, pre, hpre⟩ := ho
    have hlt : pre.length < t.length := by
      rw [← hpre, List.length_append]
      have := List.length_pos_iff.2 h0
      omega
    have hdrop : t.drop pre.length = s.tail.dropLast := by rw [← hpre]; simp
    have hfold : ∀ n b, (List.range n).foldl (scanStep t s.tail s.tail.dropLast) b =
        if n ≤ t.length then (if pre.length < n then scanStep t s.tail s.tail.dropLast b pre.length else b)
        else (List.range n).foldl (scanStep t s.tail s.tail.dropLast) b := by
      intro n b
      by_cases hn : n ≤ t.length
      · rw [if_pos hn]
        clear hlt
        induction n with
        | zero => simp
        | succ n ih =>
          rw [List.range_succ, List.foldl_append, ih (by omega)]
          simp only [List.foldl_cons, List.foldl_nil]
          by_cases hk : n = pre.length
          · subst hk; simp
          · have : ∀ b, scanStep t s.tail s.tail.dropLast b n = b := by
              intro b
              unfold scanStep
              rw [if_neg]
              intro h
              have h1 := (hmatch n (by omega) h).1
              have h2 := congrArg List.length hdrop
              rw [List.length_drop, hlc] at h2
              have h3 := congrArg List.length hpre
              rw [List.length_append, hlc] at h3
              omega
            rw [this]
            by_cases h1 : pre.length < n
            · rw [if_pos h1, if_pos (by omega)]
            · rw [if_neg h1, if_neg (by omega)]
      · rw [if_neg hn]
    rw [hfold, if_pos (Nat.le_refl _), if_pos hlt]
    unfold scanStep
    rw [if_pos (by rw [hdrop]; exact List.take_of_length_le (by simp))]
    rw [parent_take s t hlt]
    have h1 : t.take pre.length = pre := by rw [← hpre]; simp
    rw [h1]
    have hne : s.tail ≠ [] := by
      intro h; rw [h] at hl; simp at hl; omega
    have h2 : s.tail = s.tail.dropLast ++ [s.tail.getLast hne] := (List.dropLast_concat_getLast hne).symm
    have h3 : s.getLast?.toList = [s.tail.getLast hne] := by
      cases s with
      | nil => simp at hs
      | cons a s' =>
        simp only [List.tail_cons] at hne ⊢
        rw [List.getLast?_cons, List.getLast?_eq_some_getLast hne]
        rfl
    rw [h3, ← hpre]
    simp only [List.append_assoc]
    rw [← h2]
  · rw [if_neg ho]
    apply foldl_range_none
    intro b i hi
    unfold scanStep
    rw [if_neg]
    intro h
    obtain ⟨h1, h2⟩ := hmatch i hi h
    refine ho ⟨?_, ?_⟩
    · intro h0
      rw [h0] at hlc
      simp at hlc
      omega
    · rw [← h2]; exact List.drop_suffix _ _

theorem even_append (S T : List Str) : ∀ (rest : List (Str × Str)) (i : Nat) (path : List Str), i ≠ 0 → S.length = i + rest.length →
    ∃ extra, even S T i rest path = path ++ extra ∧ (rest ≠ [] → extra ≠ [])
  | [], i, path, _, _ => ⟨[], by simp [even], by simp⟩
  | (s, t) :: rest, i, path, hi, hl => by
    have hd : S.drop i ≠ [] := by
      intro h
      have := List.drop_eq_nil_iff.1 h
      simp at hl
      omega
    unfold even
    rw [if_neg hi]
    split
    · obtain ⟨e, h1, _⟩ := even_append S T rest (i + 1) (path ++ [t]) (by omega) (by simp at hl; omega)
      exact ⟨t :: e, by rw [h1]; simp, by simp⟩
    · split
      · split
        · refine ⟨_, rfl, fun _ h => hd ?_⟩
          rw [List.drop_eq_nil_iff] at h ⊢
          omega
        · exact ⟨t :: S.drop i, by simp, by simp⟩
      · split
        · obtain ⟨e, h1, _⟩ := even_append S T rest (i + 1) (path ++ S.drop (i - 1)) (by omega) (by simp at hl; omega)
          refine ⟨S.drop (i - 1) ++ e, by rw [h1]; simp, fun _ h => hd ?_⟩
          have := (List.append_eq_nil_iff.1 h).1
          rw [List.drop_eq_nil_iff] at this ⊢
          omega
        · exact ⟨_, rfl, fun _ => hd⟩

theorem last_drop {S path : List Str} {i : Nat} (h : S.drop i ≠ []) : (path ++ S.drop i).getLast? = S.getLast? := by
  rw [List.getLast?_append, List.getLast?_eq_some_getLast h, Option.some_or, ← List.getLast?_eq_some_getLast h,
    List.getLast?_drop, if_neg]
  intro h1
  exact h (List.drop_eq_nil_iff.2 h1)

theorem even_last (S T : List Str) : ∀ (rest : List (Str × Str)) (i : Nat) (path : List Str), i ≠ 0 →
    S.drop i = rest.map Prod.fst → (rest = [] → path.getLast? = S.getLast?) →
    (even S T i rest path).getLast? = S.getLast?
  | [], i, path, _, _, h => by simpa [even] using h rfl
  | (s, t) :: rest, i, path, hi, hd, h => by
    have h0 : S.drop i ≠ [] := by rw [hd]; simp
    have h1 : S.drop (i - 1) ≠ [] := by
      intro h2
      apply h0
      rw [List.drop_eq_nil_iff] at h2 ⊢
      omega
    have hd' : S.drop (i + 1) = rest.map Prod.fst := by
      rw [← List.drop_drop, hd]; rfl
    unfold even
    rw [if_neg hi]
    split
    · rename_i hst
      apply even_last S T rest (i + 1) _ (by omega) hd'
      rintro rfl
      rw [List.getLast?_concat, ← hst]
      have := last_drop (S := S) (path := []) h0
      rw [hd] at this
      simpa using this
    · split
      · split
        · exact last_drop h1
        · exact last_drop h0
      · split
        · apply even_last S T rest (i + 1) _ (by omega) hd'
          intro _
          exact last_drop h1
        · exact last_drop h0

theorem even_common (S T : List Str) (R : List (Str × Str)) : ∀ (c : List Str) (i : Nat) (path : List Str), i ≠ 0 →
    even S T i (c.zip c ++ R) path = even S T (i + c.length) R (path ++ c)
  | [], i, path, _ => by simp
  | x :: c, i, path, hi => by
    rw [List.zip_cons_cons, List.cons_append]
    rw [even, if_neg hi, if_pos rfl, even_common S T R c (i + 1) _ (by omega)]
    congr 1
    · simp; omega
    · simp

theorem heads_fold (s t : List Str) (hl : t.length < s.length) (init : List Str) : ∀ n, n ≤ t.length →
    (t.take n = s.take n ∧ (List.range n).foldl (headStep s t) init = init) ∨
    (t.take n ≠ s.take n ∧ (List.range n).foldl (headStep s t) init = t.take n ++ s.drop n)
  | 0, _ => .inl ⟨by simp, by simp⟩
  | n + 1, hn => by
    rw [List.range_succ, List.foldl_append]
    simp only [List.foldl_cons, List.foldl_nil]
    have hts : t.take (n + 1) = t.take n ++ [t[n]'(by omega)] := by rw [List.take_succ_eq_append_getElem]
    have hss : s.take (n + 1) = s.take n ++ [s[n]'(by omega)] := by rw [List.take_succ_eq_append_getElem]
    have hlen : (t.take n).length = (s.take n).length := by simp; omega
    have hg : s[n]? ≠ t[n]? ↔ s[n]'(by omega) ≠ t[n]'(by omega) := by
      rw [List.getElem?_eq_getElem (by omega), List.getElem?_eq_getElem (by omega)]
      simp
    have hst : ∀ path, headStep s t path n = if n + 1 < s.length ∧ s[n]? ≠ t[n]? then t.take (n + 1) ++ s.drop (n + 1) else path :=
      fun _ => rfl
    rw [hst]
    by_cases he : s[n]'(by omega) = t[n]'(by omega)
    · rw [if_neg (by rw [hg]; exact fun h => h.2 he)]
      rcases heads_fold s t hl init n (by omega) with ⟨h1, h2⟩ | ⟨h1, h2⟩
      · exact .inl ⟨by rw [hts, hss, h1, he], h2⟩
      · refine .inr ⟨?_, ?_⟩
        · rw [hts, hss]
          exact fun h => h1 (List.append_inj h hlen).1
        · rw [h2, List.drop_eq_getElem_cons (by omega : n < s.length), he, hts]
          rw [List.append_assoc]
          rfl
    · rw [if_pos ⟨by omega, hg.2 he⟩]
      refine .inr ⟨?_, rfl⟩
      rw [hts, hss]
      intro h
      have := (List.append_inj h hlen).2
      simp at this
      exact he this.symm

end Merging
open Merging

/-- C133: a source with fewer names than the target.  The target is kept, and what it lacks of the source is appended: the
last name, if the target ends with the names before it, or else all but the first. -/
theorem C133_short (s t : List Str) (hs : 2 ≤ s.length) (h : s.length < t.length) :
    namespaceMerger s t = some (t ++ if Overlaps s t then s.getLast?.toList else s.tail) := by
  have hb : beginOf s = 1 := by unfold beginOf; rw [if_pos (by omega)]
  have h0 : s ≠ [] := by rintro rfl; simp at hs
  unfold namespaceMerger
  rw [if_neg (by omega), if_neg (by omega), if_pos ⟨h, h0⟩]
  simp only [scan_eq s t hs]
  split
  · rfl
  · rw [hb, List.drop_one]; rfl

/-- C133: a single name is appended to a longer target. -/
theorem C133_single (x : Str) (t : List Str) (h : 1 < t.length) : namespaceMerger [x] t = some (t ++ [x]) := by
  have hsc : scan [x] t = (parentOf [x] t, false) := by
    apply foldl_range_none
    intro b i hi
    unfold scanStep
    rw [if_neg]
    intro he
    have := congrArg List.length he
    simp [beginOf, cutOf] at this
    omega
  unfold namespaceMerger
  rw [if_neg (by simp only [List.length_singleton]; omega), if_neg (by simp only [List.length_singleton]; omega),
    if_pos ⟨by simpa using h, by simp⟩]
  simp only [hsc]
  rfl

/-- C133: a source with more names than the target, which does not begin with the target.  The target is kept again, and
what lies beyond its length in the source is appended, or just the last name. -/
theorem C133_long (s t : List Str) (ht : t ≠ []) (h : t.length < s.length) (hp : ¬ t <+: s) :
    namespaceMerger s t =
      some (t ++ if s.head? ≠ t.head? ∧ Overlaps s t then s.getLast?.toList else s.drop t.length) := by
  have hpos := List.length_pos_iff.2 ht
  unfold namespaceMerger
  rw [if_neg (fun h => ht h.2)]
  by_cases hh : s.head? = t.head?
  · rw [if_neg (fun h => h.2 hh), if_neg (by omega), if_neg (by omega),
      if_pos ⟨by rintro rfl; simp at h, hh⟩]
    simp only [if_pos h, if_neg (show ¬ s.length < t.length by omega)]
    rw [if_neg (fun h : s.head? ≠ t.head? ∧ Overlaps s t => h.1 hh)]
    rcases heads_fold s t h (parentOf s t) t.length (Nat.le_refl _) with ⟨h1, h2⟩ | ⟨h1, h2⟩
    · exfalso
      apply hp
      rw [List.take_length] at h1
      rw [h1]
      exact List.take_prefix _ _
    · rw [h2, List.take_length]
  · rw [if_pos ⟨h, hh⟩]
    simp only [scan_eq s t (by omega)]
    by_cases ho : Overlaps s t
    · rw [if_pos (show s.head? ≠ t.head? ∧ Overlaps s t from ⟨hh, ho⟩), if_pos ho]; rfl
    · rw [if_neg (fun h : s.head? ≠ t.head? ∧ Overlaps s t => ho h.2), if_neg ho]; rfl

/-- C133, what does not hold: if the source begins with the target and goes on, nothing of it is appended, and a target of
several names even loses its last name. -/
theorem C133_prefix_violation (s t : List Str) (ht : t ≠ []) (h : t.length < s.length) (hp : t <+: s) :
    namespaceMerger s t = some (if 1 < t.length then t.dropLast else t) := by
  have hpos := List.length_pos_iff.2 ht
  have hs : s ≠ [] := by rintro rfl; simp at h
  have hh : s.head? = t.head? := by
    obtain ⟨u, rfl⟩ := hp
    cases t with
    | nil => exact absurd rfl ht
    | cons => rfl
  unfold namespaceMerger
  rw [if_neg (fun h => ht h.2), if_neg (fun h => h.2 hh), if_neg (by omega), if_neg (by omega), if_pos ⟨hs, hh⟩]
  simp only [if_pos h, if_neg (show ¬ s.length < t.length by omega)]
  rcases heads_fold s t h (parentOf s t) t.length (Nat.le_refl _) with ⟨h1, h2⟩ | ⟨h1, h2⟩
  · rw [h2]
    unfold parentOf
    simp [hs]
  · exfalso
    apply h1
    rw [List.take_length]
    obtain ⟨u, rfl⟩ := hp
    simp

/-- C133: namespaces of one length which agree but for the first name. -/
theorem C133_even_same (a b : Str) (c : List Str) : namespaceMerger (a :: c) (b :: c) = some (b :: c) := by
  unfold namespaceMerger
  rw [if_neg (by simp), if_neg (by simp), if_neg (by simp), if_pos (by simp)]
  rw [List.zip_cons_cons, even, if_pos rfl]
  have := even_common (a :: c) (b :: c) [] c 1 [b] (by omega)
  rw [List.append_nil] at this
  rw [this, even]
  rfl

/-- C133: namespaces of one length, which differ first (after the first name) in `x` and `y`.  The source takes over from
there, after `y` if the target goes on with `x`. -/
theorem C133_even (a b x y : Str) (c s t : List Str) (hl : s.length = t.length) (hne : x ≠ y)
    (hy : t.head? = some x ∨ (a :: c).getLast? ≠ some y) :
    namespaceMerger (a :: c ++ x :: s) (b :: c ++ y :: t) =
      some (if t.head? = some x then b :: c ++ y :: x :: s else b :: c ++ x :: s) := by
  unfold namespaceMerger
  rw [if_neg (by simp), if_neg (by simp; omega), if_neg (by simp; omega), if_pos (by simp; omega)]
  simp only [List.cons_append, List.zip_cons_cons]
  rw [even, if_pos rfl, List.zip_append rfl, List.zip_cons_cons, even_common _ _ _ _ _ _ (by omega)]
  rw [even, if_neg (by omega), if_neg hne]
  have h1 : (a :: (c ++ x :: s))[0 + 1 + c.length - 1]? = (a :: c).getLast? := by
    rw [show 0 + 1 + c.length - 1 = (a :: c).length - 1 by simp, ← List.cons_append,
      List.getElem?_append_left (by simp), List.getLast?_eq_getElem?]
  have h2 : (b :: (c ++ y :: t))[0 + 1 + c.length + 1]? = t.head? := by
    rw [← List.cons_append, List.getElem?_append_right (by simp <;> omega)]
    rw [show 0 + 1 + c.length + 1 - (b :: c).length = 1 by simp <;> omega]
    cases t <;> rfl
  have h3 : (a :: (c ++ x :: s)).drop (0 + 1 + c.length) = x :: s := by
    rw [← List.cons_append]
    exact List.drop_left' (by simp; omega)
  have h4 : (a :: c).getLast? = some y → (a :: (c ++ x :: s)).drop (0 + 1 + c.length - 1) = y :: x :: s := by
    intro h
    obtain ⟨d, hd⟩ := List.getLast?_eq_some_iff.1 h
    rw [← List.cons_append, hd, List.append_assoc]
    refine List.drop_left' ?_
    have := congrArg List.length hd
    simp at this
    omega
  rw [h1, h2, h3]
  have h5 : t.head? = some x → 0 + 1 + c.length + 1 < (b :: (c ++ y :: t)).length := by
    intro h
    cases t with
    | nil => simp at h
    | cons => simp; omega
  by_cases hx : t.head? = some x
  · rw [if_pos ⟨h5 hx, hx⟩, if_pos hx]
    split
    · rename_i h
      rw [h4 h]; rfl
    · simp
  · rw [if_neg (fun h => hx h.2), if_neg hx]
    rw [if_neg (hy.resolve_left hx)]
    rfl

/-- C133, what does not hold: if the target does not go on with `x`, but the source has `y` before `x`, the source takes over
from `y`, but the loop goes on and appends more. -/
theorem C133_even_violation (a b x y : Str) (c s t : List Str) (hl : s.length = t.length) (hne : x ≠ y)
    (hx : t.head? ≠ some x) (hy : (a :: c).getLast? = some y) :
    ∃ extra, namespaceMerger (a :: c ++ x :: s) (b :: c ++ y :: t) = some (b :: c ++ y :: x :: s ++ extra) ∧
      (extra ≠ [] ↔ s ≠ []) := by
  unfold namespaceMerger
  rw [if_neg (by simp), if_neg (by simp; omega), if_neg (by simp; omega), if_pos (by simp; omega)]
  simp only [List.cons_append, List.zip_cons_cons]
  rw [even, if_pos rfl, List.zip_append rfl, List.zip_cons_cons, even_common _ _ _ _ _ _ (by omega)]
  rw [even, if_neg (by omega), if_neg hne]
  have h1 : (a :: (c ++ x :: s))[0 + 1 + c.length - 1]? = (a :: c).getLast? := by
    rw [show 0 + 1 + c.length - 1 = (a :: c).length - 1 by simp, ← List.cons_append,
      List.getElem?_append_left (by simp), List.getLast?_eq_getElem?]
  have h2 : (b :: (c ++ y :: t))[0 + 1 + c.length + 1]? = t.head? := by
    rw [← List.cons_append, List.getElem?_append_right (by simp <;> omega)]
    rw [show 0 + 1 + c.length + 1 - (b :: c).length = 1 by simp <;> omega]
    cases t <;> rfl
  have h4 : (a :: (c ++ x :: s)).drop (0 + 1 + c.length - 1) = y :: x :: s := by
    obtain ⟨d, hd⟩ := List.getLast?_eq_some_iff.1 hy
    rw [← List.cons_append, hd, List.append_assoc]
    refine List.drop_left' ?_
    have := congrArg List.length hd
    simp at this
    omega
  rw [h1, h2, if_neg (fun h => hx h.2), if_pos hy, h4]
  obtain ⟨e, he, hn⟩ := even_append (a :: (c ++ x :: s)) (b :: (c ++ y :: t)) (s.zip t) (0 + 1 + c.length + 1)
    ([b] ++ c ++ y :: x :: s) (by omega) (by simp; omega)
  refine ⟨e, by rw [he]; simp, ?_, ?_⟩
  · rintro h5 rfl
    rw [List.zip_nil_left, even] at he
    exact h5 (List.self_eq_append_right.1 he)
  · intro h1
    apply hn
    intro h2
    rw [List.zip_eq_nil_iff] at h2
    rcases h2 with h2 | h2
    · exact h1 h2
    · rw [h2] at hl; exact h1 (List.length_eq_zero_iff.1 hl)

/-- C133: a merge begins where the target begins and ends where the source ends, unless the source is a single name or
begins with the target and goes on. -/
theorem C133_joins (s t : List Str) (hs : 2 ≤ s.length) (ht : t ≠ []) (hp : t <+: s → t.length = s.length) :
    ∃ r, namespaceMerger s t = some r ∧ Joins s t r := by
  have h0 : s ≠ [] := by rintro rfl; simp at hs
  have happ : ∀ e : List Str, e ≠ [] → e.getLast? = s.getLast? → Joins s t (t ++ e) := by
    intro e he hlast
    refine ⟨?_, ?_⟩
    · cases t with
      | nil => exact absurd rfl ht
      | cons => rfl
    · rw [List.getLast?_append, hlast, List.getLast?_eq_some_getLast h0, Option.some_or]
  have hlast : s.getLast?.toList ≠ [] ∧ s.getLast?.toList.getLast? = s.getLast? := by
    rw [List.getLast?_eq_some_getLast h0]; simp
  rcases Nat.lt_trichotomy s.length t.length with h | h | h
  · refine ⟨_, C133_short s t hs h, happ _ ?_ ?_⟩ <;> split
    · exact hlast.1
    · intro h1
      have := congrArg List.length h1
      simp at this; omega
    · exact hlast.2
    · cases s with
      | nil => simp at hs
      | cons a s =>
        cases s with
        | nil => simp at hs
        | cons b s => simp
  · cases s with
    | nil => simp at hs
    | cons a s =>
      cases t with
      | nil => exact absurd rfl ht
      | cons b t =>
        refine ⟨even (a :: s) (b :: t) 0 ((a :: s).zip (b :: t)) (parentOf (a :: s) (b :: t)), ?_, ?_⟩
        · unfold namespaceMerger
          rw [if_neg (by simp), if_neg (by simp at h ⊢; omega), if_neg (by simp at h ⊢; omega), if_pos h.symm]
        · rw [List.zip_cons_cons, even, if_pos rfl]
          have hl : s.length = t.length := by simpa using h
          refine ⟨?_, ?_⟩
          · obtain ⟨e, he, _⟩ := even_append (a :: s) (b :: t) (s.zip t) 1 [b] (by omega) (by simp; omega)
            rw [he]; rfl
          · refine even_last (a :: s) (b :: t) (s.zip t) 1 [b] (by omega) ?_ ?_
            · rw [List.map_fst_zip (by omega)]; rfl
            · intro h1
              rw [List.zip_eq_nil_iff] at h1
              rcases h1 with rfl | rfl
              · simp at hs
              · simp at hl; subst hl; simp at hs
  · have hp' : ¬ t <+: s := fun h1 => by have := hp h1; omega
    refine ⟨_, C133_long s t ht h hp', happ _ ?_ ?_⟩ <;> split
    · exact hlast.1
    · intro h1
      rw [List.drop_eq_nil_iff] at h1
      omega
    · exact hlast.2
    · have := last_drop (S := s) (path := []) (i := t.length) (by intro h1; rw [List.drop_eq_nil_iff] at h1; omega)
      simpa using this

/-- C133, what does not hold: a single name against a single name is lost. -/
theorem C133_single_violation (x y : Str) : namespaceMerger [x] [y] = some [y] := C133_even_same x y []

/-- C133, what does not hold: an empty target raises an error, while an empty source gives the target. -/
theorem C133_empty (n : List Str) : namespaceMerger [] n = some n ∧ (n ≠ [] → namespaceMerger n [] = none) := by
  constructor
  · cases n with
    | nil => rfl
    | cons x n =>
      unfold namespaceMerger
      rw [if_neg (by simp), if_neg (by simp), if_neg (by simp), if_neg (by simp), if_neg (by simp)]
      simp [parentOf]
  · intro h
    unfold namespaceMerger
    rw [if_pos ⟨by simpa using List.length_pos_iff.2 h, rfl⟩]

/-- The fourteen cases of the test suite (test_stage.py:1389-1532): source, target, result. -/
def mergeCases : List (List Str × List Str × List Str) := [
  (["Character".toList, "build".toList, "legs".toList, "left".toList],
    ["dummy".toList, "build".toList, "legs".toList],
    ["dummy".toList, "build".toList, "legs".toList, "left".toList]),
  (["Character".toList],
    ["dummy".toList],
    ["dummy".toList]),
  (["Character".toList, "build".toList, "legs".toList, "left".toList],
    ["dummy".toList, "build".toList, "legs".toList, "jack".toList],
    ["dummy".toList, "build".toList, "legs".toList, "left".toList]),
  (["Character".toList, "build".toList, "legs".toList, "left".toList],
    ["Character".toList, "build".toList, "legs".toList, "right".toList],
    ["Character".toList, "build".toList, "legs".toList, "left".toList]),
  (["Character".toList, "build".toList],
    ["dummy".toList],
    ["dummy".toList, "build".toList]),
  (["control".toList, "create".toList],
    ["leg".toList, "create".toList, "fk".toList, "controls".toList, "upper".toList],
    ["leg".toList, "create".toList, "fk".toList, "controls".toList, "upper".toList, "create".toList]),
  (["leg".toList, "create".toList, "fk".toList, "controls".toList],
    ["Character".toList, "build".toList, "legs".toList, "left".toList, "create".toList, "create".toList, "fk".toList],
    ["Character".toList, "build".toList, "legs".toList, "left".toList, "create".toList, "create".toList, "fk".toList, "controls".toList]),
  (["Character".toList, "build".toList, "legs".toList],
    ["dummy".toList, "build".toList],
    ["dummy".toList, "build".toList, "legs".toList]),
  (["Character".toList, "build".toList, "legs".toList, "left".toList, "create".toList],
    ["Character".toList, "build".toList, "legs".toList, "right".toList],
    ["Character".toList, "build".toList, "legs".toList, "right".toList, "create".toList]),
  (["limb".toList, "create".toList, "fk".toList],
    ["arm".toList, "limb".toList, "create".toList],
    ["arm".toList, "limb".toList, "create".toList, "fk".toList]),
  (["spline".toList, "controls".toList, "hips".toList],
    ["center".toList, "spine".toList, "controls".toList],
    ["center".toList, "spine".toList, "controls".toList, "hips".toList]),
  (["arm".toList, "limb".toList],
    ["left".toList, "arm".toList],
    ["left".toList, "arm".toList, "limb".toList]),
  (["arm".toList, "clavicle".toList, "control".toList],
    ["leg".toList, "pelvis".toList],
    ["leg".toList, "pelvis".toList, "control".toList]),
  (["spine".toList, "node1".toList],
    ["center".toList, "spine".toList],
    ["center".toList, "spine".toList, "node1".toList])]

example : mergeCases.all (fun e => namespaceMerger e.1 e.2.1 == some e.2.2) = true := by decide +kernel

-- the hypotheses are met: the seventh case overlaps, the sixth does not
example : Overlaps ["leg".toList, "create".toList, "fk".toList, "controls".toList]
      ["Character".toList, "build".toList, "legs".toList, "left".toList, "create".toList, "create".toList, "fk".toList] ∧
    ¬ Overlaps ["control".toList, "create".toList] ["leg".toList, "create".toList, "fk".toList, "controls".toList, "upper".toList] := by
  decide +kernel

-- what lies below the target in the source itself
example : namespaceMerger ["a".toList, "b".toList, "c".toList] ["a".toList, "b".toList] = some ["a".toList] := by decide +kernel

-- names which come twice
example : namespaceMerger ["x".toList, "a".toList, "b".toList, "c".toList] ["y".toList, "x".toList, "c".toList, "d".toList] =
    some ["y".toList, "x".toList, "a".toList, "b".toList, "c".toList, "b".toList, "c".toList] := by decide +kernel

end Nxt.Props
