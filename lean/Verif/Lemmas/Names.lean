import Verif.Model.Names
import Verif.Props.Path
/-!
# Lemmas about name generation
-/
namespace Nxt.Names
open Py Path Spec

theorem digitChar_val (n : Nat) (h : n < 10) : (digitChar n).toNat - 48 = n := by
  have : n = 0 ∨ n = 1 ∨ n = 2 ∨ n = 3 ∨ n = 4 ∨ n = 5 ∨ n = 6 ∨ n = 7 ∨ n = 8 ∨ n = 9 := by omega
  rcases this with rfl | rfl | rfl | rfl | rfl | rfl | rfl | rfl | rfl | rfl <;> decide

theorem digitChar_mem (n : Nat) (h : n < 10) : digitChar n ∈ "0123456789".toList := by
  have : n = 0 ∨ n = 1 ∨ n = 2 ∨ n = 3 ∨ n = 4 ∨ n = 5 ∨ n = 6 ∨ n = 7 ∨ n = 8 ∨ n = 9 := by omega
  rcases this with rfl | rfl | rfl | rfl | rfl | rfl | rfl | rfl | rfl | rfl <;> decide

theorem decVal_append (a b : Str) : decVal (a ++ b) = b.foldl (fun acc c => 10 * acc + (c.toNat - 48)) (decVal a) := by
  simp [decVal]

theorem decVal_dec (n : Nat) : decVal (dec n) = n := by
  induction n using Nat.strongRecOn with
  | ind n ih =>
    rw [dec]
    split
    · rename_i h; simp [decVal, digitChar_val n h]
    · rename_i h
      rw [decVal_append, ih (n / 10) (by omega)]
      simp only [List.foldl_cons, List.foldl_nil, digitChar_val (n % 10) (by omega)]
      omega

theorem dec_inj {m n : Nat} (h : dec m = dec n) : m = n := by
  have := congrArg decVal h
  rwa [decVal_dec, decVal_dec] at this

theorem dec_digits (n : Nat) : ∀ c ∈ dec n, c ∈ "0123456789".toList := by
  induction n using Nat.strongRecOn with
  | ind n ih =>
    intro c hc
    rw [dec] at hc
    split at hc
    · rename_i h
      rw [List.mem_singleton] at hc; subst hc; exact digitChar_mem n h
    · rename_i h
      rw [List.mem_append, List.mem_singleton] at hc
      rcases hc with hc | rfl
      · exact ih (n / 10) (by omega) c hc
      · exact digitChar_mem _ (by omega)

theorem dec_ne_nil (n : Nat) : dec n ≠ [] := by
  rw [dec]; split <;> simp

/-- Among more candidates than there are taken names one is free. -/
theorem pigeonhole {α : Type} (taken : List α) (f : Nat → α)
    (hf : ∀ i j, f i = f j → i = j) (k : Nat) : ∃ i, i ≤ taken.length ∧ f (k + i) ∉ taken := by
  induction taken generalizing f k with
  | nil => exact ⟨0, by simp⟩
  | cons x xs ih =>
    by_cases hx : ∃ i, i ≤ xs.length ∧ f (k + i) = x
    · -- skip the index hitting x
      obtain ⟨i, hi, hfi⟩ := hx
      let g : Nat → α := fun n => if n < k + i then f n else f (n + 1)
      have hg : ∀ a b, g a = g b → a = b := by
        intro a b hab
        simp only [g] at hab
        split at hab <;> split at hab <;> have := hf _ _ hab <;> omega
      obtain ⟨j, hj, hgj⟩ := ih g hg k
      have hne : ∀ n, g n ≠ x := by
        intro n hn
        simp only [g] at hn
        rw [← hfi] at hn
        split at hn <;> have := hf _ _ hn <;> omega
      simp only [g] at hgj
      by_cases hlt : k + j < k + i
      · rw [if_pos hlt] at hgj
        refine ⟨j, by simp; omega, ?_⟩
        have h2 := hne (k + j); simp only [g, if_pos hlt] at h2
        simp [h2, hgj]
      · rw [if_neg hlt] at hgj
        refine ⟨j + 1, by simp; omega, ?_⟩
        have h2 := hne (k + j); simp only [g, if_neg hlt] at h2
        have e : k + (j + 1) = k + j + 1 := by omega
        rw [e]; simp [h2, hgj]
    · obtain ⟨i, hi, hfi⟩ := ih f hf k
      refine ⟨i, by simp; omega, ?_⟩
      rw [List.mem_cons, not_or]
      exact ⟨fun h => hx ⟨i, hi, h⟩, hfi⟩

/-- The loop, once the first candidate is taken: it returns the free candidate of least number. -/
theorem search_least (taken : Str → Bool) (stem : Str) (fuel num d : Nat)
    (htaken : ∀ i, i < d → taken (stem ++ dec (num + i)) = true)
    (hfree : taken (stem ++ dec (num + d)) = false) (hf : d < fuel) :
    search taken stem fuel num (stem ++ dec num) = some (stem ++ dec (num + d)) := by
  induction d generalizing fuel num with
  | zero =>
    cases fuel with
    | zero => omega
    | succ fuel => simp at hfree; simp [search, hfree]
  | succ d ih =>
    cases fuel with
    | zero => omega
    | succ fuel =>
      have h0 := htaken 0 (by omega)
      rw [Nat.add_zero] at h0
      rw [search, if_pos h0]
      have := ih fuel (num + 1) (fun i hi => by
        have := htaken (i + 1) (by omega)
        rwa [show num + (i + 1) = num + 1 + i by omega] at this)
        (by rwa [show num + 1 + d = num + (d + 1) by omega]) (by omega)
      rw [this, show num + 1 + d = num + (d + 1) by omega]

/-- Least free index. -/
theorem exists_least (p : Nat → Prop) (n : Nat) (h : p n) :
    ∃ d, d ≤ n ∧ p d ∧ ∀ i, i < d → ¬ p i := by
  induction n using Nat.strongRecOn with
  | ind n ih =>
    by_cases hex : ∃ m, m < n ∧ p m
    · obtain ⟨m, hm, hp⟩ := hex
      obtain ⟨d, h1, h2, h3⟩ := ih m hm hp
      exact ⟨d, by omega, h2, h3⟩
    · exact ⟨n, Nat.le_refl n, h, fun i hi hp => hex ⟨i, hi, hp⟩⟩

/-- The whole search against a finite list of taken things seen through an injective view. -/
theorem search_total {β : Type} (taken : Str → Bool) (view : Str → β) (names : List β)
    (htk : ∀ t, taken t = true ↔ view t ∈ names) (stem first : Str)
    (hinj : ∀ i j, view (stem ++ dec i) = view (stem ++ dec j) → i = j) (num fuel : Nat)
    (hf : names.length + 2 ≤ fuel) :
    (view first ∉ names ∧ search taken stem fuel num first = some first) ∨
    (view first ∈ names ∧ ∃ k, num < k ∧ view (stem ++ dec k) ∉ names ∧
      (∀ j, num < j → j < k → view (stem ++ dec j) ∈ names) ∧
      search taken stem fuel num first = some (stem ++ dec k)) := by
  cases fuel with
  | zero => omega
  | succ fuel =>
    by_cases h : view first ∈ names
    · right
      refine ⟨h, ?_⟩
      obtain ⟨i, hi, hfree⟩ := pigeonhole names (fun i => view (stem ++ dec i)) hinj (num + 1)
      obtain ⟨d, hd, hp, hleast⟩ := exists_least (fun d => view (stem ++ dec (num + 1 + d)) ∉ names) i hfree
      refine ⟨num + 1 + d, by omega, hp, ?_, ?_⟩
      · intro j h1 h2
        have := hleast (j - (num + 1)) (by omega)
        rw [show num + 1 + (j - (num + 1)) = j by omega] at this
        exact Classical.not_not.1 this
      · rw [search, if_pos ((htk _).2 h)]
        apply search_least
        · intro i hi
          exact (htk _).2 (Classical.not_not.1 (hleast i hi))
        · rw [Bool.eq_false_iff, ne_eq, htk]; exact hp
        · omega
    · left
      refine ⟨h, ?_⟩
      rw [search, if_neg (by rw [htk]; exact h)]

theorem legalize_word {cc : CharClass} (hcc : cc.Ok) {n l : Str} (h : legalize cc n = some l) :
    l ≠ [] ∧ (∀ c ∈ l, cc.isWord c = true) ∧ ∃ c cs, l = c :: cs ∧ cc.isDigit c = false := by
  cases n with
  | nil => simp [legalize] at h
  | cons c cs =>
    simp only [legalize, Option.some.injEq] at h
    have hw : ∀ x ∈ l, cc.isWord x = true := by
      intro x hx
      rw [← h, List.mem_map] at hx
      obtain ⟨y, -, rfl⟩ := hx
      split
      · assumption
      · exact hcc.underscore_word
    by_cases hd : cc.isDigit c = true
    · rw [if_pos hd] at h
      subst h
      refine ⟨by simp, hw, '_', (c :: cs).map (fun c => if cc.isWord c then c else '_'), ?_,
        hcc.underscore_digit⟩
      rw [List.map_cons, if_pos hcc.underscore_word]
    · rw [if_neg hd] at h
      subst h
      refine ⟨by simp, hw, _, _, rfl, ?_⟩
      dsimp only
      split
      · simpa using hd
      · exact hcc.underscore_digit

theorem isName_of_word {cc : CharClass} (hcc : cc.Ok) {l : Str} (h0 : l ≠ [])
    (h : ∀ c ∈ l, cc.isWord c = true) : IsName l := by
  refine ⟨h0, ?_, ?_⟩
  · intro hm; have := h _ hm; rw [hcc.slash] at this; cases this
  · intro hm; have := h _ hm; rw [hcc.dot] at this; cases this

theorem rstripDigits_split (s : Str) : ∃ t, s = rstripDigits s ++ t ∧ (∀ c ∈ t, isAsciiDigit c = true) ∧
    ((rstripDigits s).getLast?.map isAsciiDigit ≠ some true) := by
  refine ⟨(s.reverse.takeWhile isAsciiDigit).reverse, ?_, ?_, ?_⟩
  · unfold rstripDigits
    rw [← List.reverse_append, List.takeWhile_append_dropWhile, List.reverse_reverse]
  · intro c hc
    rw [List.mem_reverse] at hc
    have := List.all_takeWhile (p := isAsciiDigit) (l := s.reverse)
    rw [List.all_eq_true] at this
    exact this c hc
  · unfold rstripDigits
    rw [List.getLast?_reverse]
    intro h
    cases hd : (s.reverse.dropWhile isAsciiDigit) with
    | nil => rw [hd] at h; simp at h
    | cons a b =>
      rw [hd] at h
      simp at h
      have := List.head?_dropWhile_not isAsciiDigit s.reverse
      rw [hd] at this
      simp [h] at this

end Nxt.Names
