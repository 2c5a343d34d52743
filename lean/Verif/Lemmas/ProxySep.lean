import Verif.Props.Proxies
/-!
# What follows from separate instances
-/
namespace Nxt.Props
open Dict Spec Proxies Path

variable {N : List Str → Option (Option Str)}

theorem pointsTo_unique {i : Str} {p r r' : List Str} (h : PointsTo i p r) (h' : PointsTo i p r') : r = r' := by
  obtain ⟨-, n1, h1 | ⟨-, h1, h2⟩⟩ := h
  · subst h1
    exact (pointsTo_abs n1 h').symm
  · obtain ⟨-, n2, h3 | ⟨-, -, h3⟩⟩ := h'
    · subst h3
      exact absurd (head_render r') h1
    · exact render_inj n1 n2 (h2.symm.trans h3)

theorem InstOf.unique {p r r' : List Str} (h : InstOf N p r) (h' : InstOf N p r') : r = r' := by
  obtain ⟨-, i, h1, h2⟩ := h
  obtain ⟨-, j, h3, h4⟩ := h'
  rw [h1] at h3
  cases h3
  exact pointsTo_unique h2 h4

/-- The facts of separate instances: each copies its source once. -/
def SepFact (N : List Str → Option (Option Str)) : Fact → Prop
  | .node p => N p ≠ none ∨ ∃ q r t more, t ≠ [] ∧ Names t ∧ p = q ++ t ∧ InstOf N q r ∧ Names more ∧ N (r ++ t ++ more) ≠ none
  | .inst p s => ∃ q r t, Names t ∧ p = q ++ t ∧ s = r ++ t ∧ InstOf N q r

theorem comparable {α : Type} {a b c d : List α} (h : a ++ b = c ++ d) : a <+: c ∨ c <+: a :=
  List.prefix_or_prefix_of_prefix ⟨b, rfl⟩ ⟨d, h.symm⟩

theorem Separate.below (C : Separate N) {q r u : List Str} (hi : InstOf N q r) (h : SepFact N (.node (r ++ u))) :
    N (r ++ u) ≠ none := by
  rcases h with h | ⟨q', r', t, more, -, -, he, hi', -, -⟩
  · exact h
  · obtain ⟨h1, h2⟩ := C.apart q r q' r' hi hi'
    rcases comparable he with h | h
    · exact absurd h h2
    · exact absurd h h1

theorem sep_made (C : Separate N) {f : Fact} (h : Made N f) : SepFact N f := by
  induction h with
  | node _ h => exact .inl (by rw [h]; simp)
  | @inst p r i h1 h2 h3 => exact ⟨p, r, [], names_nil, by simp, by simp, h1, i, h2, h3⟩
  | @copyNode p s rest x m1 _ m3 i1 i2 i3 =>
    obtain ⟨q, r, t, ht, rfl, rfl, hi⟩ := i1
    have hx := names_append.1 m3.names
    have := Separate.below C hi (u := t ++ x :: rest) (by rw [← List.append_assoc]; exact i3)
    refine .inr ⟨q, r, t ++ [x], rest, by simp, names_append.2 ⟨ht, ?_⟩, by simp, hi, (names_cons.1 hx.2).2, by simpa using this⟩
    exact names_cons.2 ⟨(names_cons.1 hx.2).1, names_nil⟩
  | @copyInst p s rest x _ _ m3 _ i1 _ _ =>
    obtain ⟨q, r, t, ht, rfl, rfl, hi⟩ := i1
    have hx := names_append.1 m3.names
    refine ⟨q, r, t ++ [x], names_append.2 ⟨ht, names_cons.2 ⟨(names_cons.1 hx.2).1, names_nil⟩⟩, by simp, by simp, hi⟩

/-- Two instances with a node in common are the same. -/
theorem Separate.same (C : Separate N) {q r t q' r' t' : List Str} (h : InstOf N q r) (h' : InstOf N q' r')
    (e : q ++ t = q' ++ t') : q = q' ∧ r = r' ∧ t = t' := by
  have hq : q = q' := by
    have key : ∀ {q r q' r' : List Str}, InstOf N q r → InstOf N q' r' → q <+: q' → q = q' := by
      rintro q r q' r' h h' ⟨u, rfl⟩
      by_cases hu : u = []
      · simp [hu]
      · obtain ⟨h1, i, h2, -⟩ := h'
        cases (C.own q r u _ h hu (names_append.1 h1).2 h2).1
    rcases comparable e with he | he
    · exact key h h' he
    · exact (key h' h he).symm
  subst hq
  exact ⟨rfl, InstOf.unique h h', List.append_cancel_left e⟩

theorem Separate.calm (C : Separate N) : Calm N where
  one := by
    intro p s s' h h'
    obtain ⟨q, r, t, -, rfl, rfl, hi⟩ := sep_made C h
    obtain ⟨q', r', t', -, e, rfl, hi'⟩ := sep_made C h'
    obtain ⟨-, rfl, rfl⟩ := Separate.same C hi hi' e
    rfl
  early := by
    intro p s i x rest hN h hb
    obtain ⟨q, r, t, ht, rfl, rfl, hi⟩ := sep_made C h
    by_cases h0 : t = []
    · subst h0
      obtain ⟨-, j, h1, h2⟩ := hi
      rw [List.append_nil] at hN ⊢
      rw [h1] at hN
      cases hN
      exact ⟨j, rfl, by simpa using h2⟩
    · have hxr := (names_append.1 hb.names).2
      rw [List.append_assoc] at hb
      have := Separate.below C hi (sep_made C hb)
      rw [← List.append_assoc] at this
      exact absurd ((C.own q r t _ hi h0 ht hN).2 x rest hxr) this
  above := by
    intro p s x rest h _ u _ e
    obtain ⟨q, r, t, -, rfl, rfl, hi⟩ := sep_made C h
    rw [List.append_assoc] at e
    obtain ⟨h1, h2⟩ := C.apart q r q r hi hi
    rcases comparable e with h | h
    · exact h1 h
    · exact h2 h
  cycle := by
    intro p s x rest h _ hf
    obtain ⟨q, r, t, -, rfl, rfl, hi⟩ := sep_made C h
    have none : ∀ z, ¬ Made N (.inst z (q ++ t)) := by
      intro z hz
      obtain ⟨q', r', t', -, -, e, hi'⟩ := sep_made C hz
      obtain ⟨h1, h2⟩ := C.apart q' r' q r hi' hi
      rcases comparable e with h | h
      · exact h1 h
      · exact h2 h
    have : ∀ z, ¬ Feeds N (q ++ t) z := by
      intro z hz
      induction hz with
      | one h => exact none _ h
      | more _ _ ih => exact ih
    exact this _ hf

/-- The copies of the nodes below the sources. -/
theorem sep_copies (C : Separate N) {q r : List Str} (hi : InstOf N q r) (t more : List Str) (hn : Names (r ++ t ++ more))
    (h : N (r ++ t ++ more) ≠ none) : Made N (.node (q ++ t)) ∧ Made N (.inst (q ++ t) (r ++ t)) := by
  induction t using Legacy.snocInduct generalizing more with
  | nil =>
    obtain ⟨h1, i, h2, h3⟩ := hi
    rw [List.append_nil, List.append_nil]
    exact ⟨.node h1 h2, .inst h1 h2 h3⟩
  | snoc t x ih =>
    obtain ⟨i, hN⟩ := Option.ne_none_iff_exists'.1 h
    obtain ⟨h1, h2⟩ := ih (x :: more) (by simpa using hn) (by simpa using h)
    have h3 : Made N (.node (r ++ t ++ x :: more)) := by
      have := Made.node hn hN
      simpa using this
    have hx : Names (t ++ [x]) := (names_append.1 (names_append.1 (by simpa using hn)).1).2
    have h4 : N (q ++ t ++ [x]) ≠ some (some []) := by
      intro he
      rw [List.append_assoc] at he
      cases (C.own q r (t ++ [x]) _ hi (by simp) hx he).1
    rw [← List.append_assoc, ← List.append_assoc]
    exact ⟨.copyNode h2 h1 h3, .copyInst h2 h1 h3 h4⟩

/-- All nodes which follow, and some more. -/
def candidates (K : List (List Str)) : List (List Str) :=
  K ++ K.flatMap (fun q => K.flatMap (fun u => (List.range (u.length + 1)).flatMap (fun k =>
    (List.range (u.length + 1)).map (fun m => q ++ (u.drop k).take m))))

theorem sep_finite {S : St} (C : Separate (nodesOf S)) (hs : Start S) : ∃ l : List (List Str), ∀ p, Made (nodesOf S) (.node p) → p ∈ l := by
  have hK : ∀ p, Names p → nodesOf S p ≠ none → p ∈ [] :: (keys S.nodes).map toNamespace := by
    intro p hp hN
    have hk : render p ∈ keys S.nodes := Classical.byContradiction (fun h => hN (nodesOf_none.2 h))
    by_cases h0 : p = []
    · rw [h0]; exact List.mem_cons_self
    · refine List.mem_cons_of_mem _ (List.mem_map.2 ⟨_, hk, ?_⟩)
      have e := C08_namespace_roundtrip p hp h0
      rw [← e.1]; exact e.2
  refine ⟨candidates ([] :: (keys S.nodes).map toNamespace), fun p hp => ?_⟩
  unfold candidates
  rcases sep_made C hp with h | ⟨q, r, t, more, h0, h1, rfl, hi, h2, h3⟩
  · exact List.mem_append_left _ (hK p hp.names h)
  · refine List.mem_append_right _ (List.mem_flatMap.2 ⟨q, ?_, List.mem_flatMap.2 ⟨r ++ t ++ more, ?_, ?_⟩⟩)
    · obtain ⟨hq, i, hN, -⟩ := hi
      exact hK q hq (by rw [hN]; simp)
    · obtain ⟨-, i, -, hr⟩ := hi
      exact hK _ (names_append.2 ⟨names_append.2 ⟨hr.2.1, h1⟩, h2⟩) h3
    · refine List.mem_flatMap.2 ⟨r.length, List.mem_range.2 (by simp; omega), List.mem_map.2 ⟨t.length, List.mem_range.2 (by simp; omega), ?_⟩⟩
      rw [List.append_assoc, List.drop_left, List.take_left]

theorem not_pointsTo_nil {p r : List Str} : ¬ PointsTo [] p r := by
  rintro ⟨-, -, h | ⟨h, -⟩⟩
  · have := head_render r
    rw [← h] at this
    cases this
  · exact h rfl

/-- What an instance which follows points to has nodes at or below it. -/
theorem sep_made_more (C : Separate N) {p s : List Str} (h : Made N (.inst p s)) : ∃ q r t, Names t ∧ p = q ++ t ∧ s = r ++ t ∧
    InstOf N q r ∧ (t = [] ∨ ∃ more, Names more ∧ N (r ++ t ++ more) ≠ none) := by
  obtain ⟨q, r, t, h1, h2, h3, h4⟩ := sep_made C h
  refine ⟨q, r, t, h1, h2, h3, h4, ?_⟩
  cases h with
  | inst h5 h6 h7 =>
    obtain ⟨e1, -, e3⟩ := Separate.same C (t := t) h4 (q' := p) (r' := s) (t' := []) ⟨h5, _, h6, h7⟩ (by rw [List.append_nil]; exact h2.symm)
    exact .inl e3
  | @copyInst p' s' rest x m1 _ m3 _ =>
    obtain ⟨q', r', t', _, rfl, rfl, hi⟩ := sep_made C m1
    obtain ⟨rfl, rfl, rfl⟩ := Separate.same C (t := t) h4 hi (t' := t' ++ [x]) (by rw [← h2, List.append_assoc])
    have hxr := (names_append.1 m3.names).2
    rw [List.append_assoc] at m3
    have := Separate.below C hi (sep_made C m3)
    exact .inr ⟨rest, (names_cons.1 hxr).2, by simpa using this⟩

end Nxt.Props
