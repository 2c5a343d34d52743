import Verif.Lemmas.ProxySep
/-!
Whether instances are separate can be read off a table of the nodes and one of the sources.
-/
namespace Nxt.Props
open Dict Spec Proxies Path

/-- The conditions of `Separate` on a table of nodes with their instance paths and a table of instances with their sources. -/
structure SepTable (K : List (List Str × Option Str)) (P : List (List Str × List Str)) : Prop where
  apart : ∀ a ∈ P, ∀ b ∈ P, ¬ b.1 <+: a.2 ∧ ¬ a.2 <+: b.1
  own : ∀ a ∈ P, ∀ e ∈ K, a.1 <+: e.1 → a.1 ≠ e.1 → e.2 = none ∧
    ∀ f ∈ K, (a.2 ++ e.1.drop a.1.length) <+: f.1 → f.1 = a.2 ++ e.1.drop a.1.length

theorem separate_of_table {N : List Str → Option (Option Str)} {K : List (List Str × Option Str)} {P : List (List Str × List Str)}
    (hK : ∀ p i, Names p → N p = some i → (p, i) ∈ K)
    (hP : ∀ p j, (p, some j) ∈ K → j = [] ∨ ∃ r, (p, r) ∈ P ∧ PointsTo j p r) (hT : SepTable K P) : Separate N := by
  have hi : ∀ {p r}, InstOf N p r → (p, r) ∈ P := by
    rintro p r ⟨h1, j, h2, h3⟩
    rcases hP p j (hK p _ h1 h2) with rfl | ⟨r', h4, h5⟩
    · exact absurd h3 not_pointsTo_nil
    · rw [pointsTo_unique h3 h5]; exact h4
  refine ⟨fun p r q s h h' => hT.apart _ (hi h) _ (hi h'), ?_, ?_⟩
  · intro p i hp h
    rcases hP p i (hK p _ hp h) with h | ⟨r, -, h⟩
    · exact .inl h
    · exact .inr ⟨r, h⟩
  · intro p r t i h h0 ht hN
    have h1 := hT.own _ (hi h) _ (hK _ _ (names_append.2 ⟨h.1, ht⟩) hN) ⟨t, rfl⟩ (by simpa using Ne.symm h0)
    refine ⟨h1.1, fun x rest hx => ?_⟩
    cases hg : N (r ++ t ++ x :: rest) with
    | none => rfl
    | some k =>
      obtain ⟨-, -, -, ⟨-, hr, -⟩⟩ := h
      have h2 := h1.2 _ (hK _ _ (names_append.2 ⟨names_append.2 ⟨hr, ht⟩, hx⟩) hg)
      simp at h2

end Nxt.Props
