import Verif.Model.Version
import Verif.Spec.Version
import Verif.Lemmas.Py
/-!
# Lemmas on version texts and the converter loop
-/
namespace Nxt.Version
open Spec

theorem decimal_digits {s : Str} {n : Nat} (h : Decimal s n) : s ≠ [] ∧ ∀ c ∈ s, isDigit c = true := by
  have hd : ∀ c : Char, '0' ≤ c ∧ c ≤ '9' → isDigit c = true := by
    intro c hc
    have h1 : 48 ≤ c.toNat := hc.1
    have h2 : c.toNat ≤ 57 := hc.2
    simp [isDigit, h1, h2]
  induction h with
  | one c hc => exact ⟨by simp, by simpa using hd c hc⟩
  | snoc s n c hc h ih =>
    refine ⟨by simp, ?_⟩
    intro x hx
    rw [List.mem_append, List.mem_singleton] at hx
    rcases hx with hx | rfl
    · exact ih.2 x hx
    · exact hd _ hc

theorem decimal_val {s : Str} {n : Nat} (h : Decimal s n) : digitsVal s = n := by
  induction h with
  | one c hc =>
    show 10 * 0 + (c.toNat - 48) = _
    have : '0'.toNat = 48 := rfl
    omega
  | snoc s n c hc h ih =>
    unfold digitsVal at ih ⊢
    rw [List.foldl_append, ih]
    rfl

theorem digit_not {c d : Char} (hc : isDigit c = true) (hd : d.toNat < 48 ∨ 57 < d.toNat) : c ≠ d := by
  rintro rfl
  simp [isDigit] at hc
  omega

theorem strip_digits {s : Str} (h : ∀ c ∈ s, isDigit c = true) : strip s = s := by
  have hs : ∀ c : Char, isDigit c = true → isSpace c = false := by
    intro c hc
    simp [isDigit] at hc
    simp [isSpace]
    omega
  have hdrop : ∀ l : Str, (∀ c ∈ l, isDigit c = true) → l.dropWhile isSpace = l := by
    intro l hl
    cases l with
    | nil => rfl
    | cons c l => rw [List.dropWhile_cons, if_neg]; rw [hs c (hl c (by simp))]; simp
  unfold strip
  rw [hdrop s h, hdrop s.reverse (fun c hc => h c (by simpa using hc)), List.reverse_reverse]

theorem parseInt_decimal {s : Str} {n : Nat} (h : Decimal s n) : parseInt s = some (n : Int) := by
  obtain ⟨h1, h2⟩ := decimal_digits h
  have hp : parseNat s = some n := by
    unfold parseNat
    rw [Py.split_of_not_mem (fun hm => digit_not (h2 _ hm) (by decide) rfl)]
    have : (s.all isDigit) = true := List.all_eq_true.2 h2
    have h3 : s.isEmpty = false := by cases s <;> simp_all
    simp [this, h3, decimal_val h]
  unfold parseInt
  rw [strip_digits h2]
  cases s with
  | nil => exact absurd rfl h1
  | cons c r =>
    have e1 : c ≠ '-' := digit_not (h2 c (by simp)) (by decide)
    have e2 : c ≠ '+' := digit_not (h2 c (by simp)) (by decide)
    split
    · rename_i heq; cases heq; exact absurd rfl e1
    · rename_i heq; cases heq; exact absurd rfl e2
    · rw [hp]; rfl

/-- A version text: two numbers and possibly something after a further dot. -/
theorem majorMinor_decimal {a b r : Str} {m n : Nat} (ha : Decimal a m) (hb : Decimal b n)
    (hr : r = [] ∨ ∃ t, r = '.' :: t) : majorMinor (a ++ '.' :: (b ++ r)) = some ((m : Int), (n : Int)) := by
  have nd : ∀ {s : Str} {n : Nat}, Decimal s n → '.' ∉ s := fun h hm =>
    digit_not ((decimal_digits h).2 _ hm) (by decide) rfl
  unfold majorMinor
  rw [Py.split_append_sep (nd ha)]
  rcases hr with rfl | ⟨t, rfl⟩
  · rw [List.append_nil, Py.split_of_not_mem (nd hb)]
    simp only [parseInt_decimal ha, parseInt_decimal hb]
  · rw [Py.split_append_sep (nd hb)]
    simp only [parseInt_decimal ha, parseInt_decimal hb]

theorem majorMinor_no_dot {v : Str} (h : '.' ∉ v) : majorMinor v = none := by
  unfold majorMinor; rw [Py.split_of_not_mem h]

/-! ### The loop -/

theorem filter_step {D : Type} (table : Table D) (hs : (table.map Prod.fst).Pairwise (· < ·)) (v : Int) :
    table.filter (fun e => v ≤ e.1)
      = ((Dict.get? v table).map (fun c => (v, c))).toList ++ table.filter (fun e => v + 1 ≤ e.1) := by
  induction table with
  | nil => rfl
  | cons e t ih =>
    obtain ⟨k, c⟩ := e
    rw [List.map_cons, List.pairwise_cons] at hs
    have hall : k < v + 1 → k ≥ v → t.filter (fun e => v ≤ e.1) = t ∧ t.filter (fun e => v + 1 ≤ e.1) = t := by
      intro h1 h2
      constructor <;> rw [List.filter_eq_self] <;> intro x hx <;>
        have := hs.1 x.1 (List.mem_map.2 ⟨x, hx, rfl⟩) <;> simp <;> omega
    rw [Dict.get?]
    by_cases h1 : k = v
    · rw [if_pos h1]
      subst h1
      obtain ⟨g1, g2⟩ := hall (by omega) (by omega)
      rw [List.filter_cons, List.filter_cons, g1, g2]
      simp
      omega
    · rw [if_neg h1, List.filter_cons, List.filter_cons]
      by_cases h2 : v ≤ k
      · -- then no entry of the rest has key v
        have hnone : Dict.get? v t = none := by
          cases hg : Dict.get? v t with
          | none => rfl
          | some c' =>
            exfalso
            have : ∀ (t : Table D), Dict.get? v t = some c' → v ∈ t.map Prod.fst := by
              intro t
              induction t with
              | nil => intro h; cases h
              | cons e t ih =>
                obtain ⟨k', c''⟩ := e
                rw [Dict.get?]
                split
                · intro _; simp [*]
                · intro h; simp [ih h]
            have := hs.1 v (this t hg)
            omega
        have := ih hs.2
        rw [hnone] at this ⊢
        simp only [Option.map_none, Option.toList_none, List.nil_append] at this ⊢
        rw [this]
        have h3 : v + 1 ≤ k := by omega
        simp [h2, h3]
      · have h3 : ¬ v + 1 ≤ k := by omega
        simp only [h2, h3, decide_false, Bool.false_eq_true, if_false]
        exact ih hs.2

theorem convLoop_spec {D : Type} (table : Table D) (hs : (table.map Prod.fst).Pairwise (· < ·))
    (hk : ∀ e ∈ table, e.1 ≤ GRAPH_MINOR) (fuel : Nat) (v : Int) (hv : v ≤ GRAPH_MINOR)
    (hf : GRAPH_MINOR - v < fuel) (d : D) :
    convLoop table fuel v d
      = match applyAll ((table.filter (fun e => v ≤ e.1)).map Prod.snd) d with
        | some d' => .ok d'
        | none => .fail := by
  induction fuel generalizing v d with
  | zero => omega
  | succ fuel ih =>
    rw [convLoop, filter_step table hs v]
    cases hg : Dict.get? v table with
    | none =>
      simp only [Option.map_none, Option.toList_none, List.nil_append]
      by_cases he : v = GRAPH_MINOR
      · rw [if_pos he]
        have : table.filter (fun e => v + 1 ≤ e.1) = [] := by
          rw [List.filter_eq_nil_iff]; intro e he'; have := hk e he'; simp; omega
        rw [this]; rfl
      · rw [if_neg he]
        exact ih (v + 1) (by omega) (by omega) d
    | some c =>
      simp only [Option.map_some, Option.toList_some, List.cons_append, List.nil_append, List.map_cons, applyAll]
      cases hc : c d with
      | none => rfl
      | some d' =>
        simp only [Option.bind_some]
        by_cases he : v = GRAPH_MINOR
        · rw [if_pos he]
          have : table.filter (fun e => v + 1 ≤ e.1) = [] := by
            rw [List.filter_eq_nil_iff]; intro e he'; have := hk e he'; simp; omega
          rw [this]; rfl
        · rw [if_neg he]
          exact ih (v + 1) (by omega) (by omega) d'

theorem get?_above {D : Type} {table : Table D} (hk : ∀ e ∈ table, e.1 ≤ GRAPH_MINOR) {v : Int}
    (hv : GRAPH_MINOR < v) : Dict.get? v table = none := by
  induction table with
  | nil => rfl
  | cons e t ih =>
    obtain ⟨k, c⟩ := e
    have := hk (k, c) (by simp)
    rw [Dict.get?, if_neg (by simp at this; omega)]
    exact ih (fun e he => hk e (by simp [he]))

theorem convLoop_above {D : Type} (table : Table D) (hk : ∀ e ∈ table, e.1 ≤ GRAPH_MINOR) (fuel : Nat)
    (v : Int) (hv : GRAPH_MINOR < v) (d : D) : convLoop table fuel v d = .outOfFuel := by
  induction fuel generalizing v with
  | zero => rfl
  | succ fuel ih =>
    rw [convLoop, get?_above hk hv]
    simp only
    rw [if_neg (by omega)]
    exact ih (v + 1) (by omega)

end Nxt.Version
