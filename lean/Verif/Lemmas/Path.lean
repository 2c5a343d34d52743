import Verif.Model.Path
import Verif.Spec.Path
import Verif.Lemmas.Py
/-!
# Lemmas about node paths
-/
namespace Nxt.Path
open Py Spec

theorem eq_nil_or_snoc {α : Type} (l : List α) : l = [] ∨ ∃ m x, l = m ++ [x] := by
  by_cases h : l = []
  · exact .inl h
  · exact .inr ⟨l.dropLast, l.getLast h, (List.dropLast_concat_getLast h).symm⟩

theorem slashed_append (a b : List Str) : slashed (a ++ b) = slashed a ++ slashed b := by
  induction a with
  | nil => rfl
  | cons n ns ih => simp [slashed, ih]

theorem slashed_snoc (ns : List Str) (n : Str) : slashed (ns ++ [n]) = slashed ns ++ '/' :: n := by
  rw [slashed_append]; simp [slashed]

theorem render_nil : render [] = WORLD := rfl

theorem render_cons (n : Str) (ns : List Str) : render (n :: ns) = slashed (n :: ns) := by
  simp [render]

theorem render_ne_nil {ns : List Str} (h : ns ≠ []) : render ns = slashed ns := by
  simp [render, h]

theorem render_snoc (ns : List Str) (n : Str) : render (ns ++ [n]) = slashed ns ++ '/' :: n := by
  rw [render_ne_nil (by simp), slashed_snoc]

theorem slashed_eq_nil {ns : List Str} : slashed ns = [] ↔ ns = [] := by
  cases ns <;> simp [slashed]

theorem names_append {a b : List Str} : Names (a ++ b) ↔ Names a ∧ Names b := by
  unfold Names; simp only [List.mem_append]
  constructor
  · intro h; exact ⟨fun n hn => h n (.inl hn), fun n hn => h n (.inr hn)⟩
  · rintro ⟨h1, h2⟩ n (hn | hn)
    · exact h1 n hn
    · exact h2 n hn

theorem names_cons {n : Str} {ns : List Str} : Names (n :: ns) ↔ IsName n ∧ Names ns := by
  unfold Names; simp

theorem names_nil : Names [] := by simp [Names]

theorem names_take {ns : List Str} (h : Names ns) (k : Nat) : Names (ns.take k) :=
  fun n hn => h n (List.mem_of_mem_take hn)

theorem names_dropLast {ns : List Str} (h : Names ns) : Names ns.dropLast :=
  fun n hn => h n (List.dropLast_subset _ hn)

/-- A rendered path of at least one name is not the world path. -/
theorem slashed_ne_world {ns : List Str} (h : Names ns) : slashed ns ≠ WORLD := by
  cases ns with
  | nil => simp [slashed, WORLD]
  | cons n ns =>
    have hn := (names_cons.1 h).1
    simp only [slashed, WORLD, ne_eq, List.cons.injEq, true_and, List.append_eq_nil_iff, not_and]
    intro h; exact absurd h hn.1

theorem slashed_inj {a b : List Str} (ha : Names a) (hb : Names b) (h : slashed a = slashed b) :
    a = b := by
  induction a generalizing b with
  | nil => exact (slashed_eq_nil.1 h.symm).symm
  | cons n ns ih =>
    cases b with
    | nil => simp [slashed] at h
    | cons m ms =>
      simp only [slashed, List.cons.injEq, true_and] at h
      have hn := (names_cons.1 ha).1
      have hm := (names_cons.1 hb).1
      have hns := (names_cons.1 ha).2
      have hms := (names_cons.1 hb).2
      have key : n = m ∧ slashed ns = slashed ms := by
        rcases List.append_eq_append_iff.1 h with ⟨x, h1, h2⟩ | ⟨x, h1, h2⟩
        · cases x with
          | nil => simp at h1 h2; exact ⟨h1.symm, h2⟩
          | cons c x =>
            exfalso
            cases ns with
            | nil => simp [slashed] at h2
            | cons k ks =>
              simp [slashed] at h2
              rw [← h2.1] at h1
              exact hm.2.1 (by rw [h1]; simp)
        · cases x with
          | nil => simp at h1 h2; exact ⟨h1, h2.symm⟩
          | cons c x =>
            exfalso
            cases ms with
            | nil => simp [slashed] at h2
            | cons k ks =>
              simp [slashed] at h2
              rw [← h2.1] at h1
              exact hn.2.1 (by rw [h1]; simp)
      rw [key.1, ih hns hms key.2]

theorem render_inj {a b : List Str} (ha : Names a) (hb : Names b) (h : render a = render b) :
    a = b := by
  cases a with
  | nil =>
    cases b with
    | nil => rfl
    | cons m ms => rw [render_cons, render_nil] at h; exact absurd h.symm (slashed_ne_world hb)
  | cons n ns =>
    cases b with
    | nil => rw [render_cons, render_nil] at h; exact absurd h (slashed_ne_world ha)
    | cons m ms => rw [render_cons, render_cons] at h; exact slashed_inj ha hb h

theorem render_eq_world {a : List Str} (ha : Names a) : render a = WORLD ↔ a = [] := by
  constructor
  · intro h; exact render_inj ha names_nil h
  · rintro rfl; rfl

theorem join_cons_slashed (n : Str) (ns : List Str) : join ['/'] (n :: ns) = n ++ slashed ns := by
  induction ns generalizing n with
  | nil => simp [join, slashed]
  | cons m ms ih =>
    have : join ['/'] (n :: m :: ms) = n ++ ['/'] ++ join ['/'] (m :: ms) := rfl
    rw [this, ih m]; simp [slashed]

theorem fromNamespace_eq {ns : List Str} (h : ns ≠ []) : fromNamespace ns = render ns := by
  cases ns with
  | nil => exact absurd rfl h
  | cons n ns => rw [render_cons, fromNamespace]; simp [SEP, join_cons_slashed, slashed]

/-- Two dots cannot occur in the parts, so well formed paths have no attribute separator. -/
theorem dot_not_mem_slashed {ns : List Str} (h : Names ns) : '.' ∉ slashed ns := by
  induction ns with
  | nil => simp [slashed]
  | cons n ns ih =>
    have h' := names_cons.1 h
    simp only [slashed, List.mem_cons, List.mem_append, not_or]
    exact ⟨by decide, h'.1.2.2, ih h'.2⟩

theorem dot_not_mem_render {ns : List Str} (h : Names ns) : '.' ∉ render ns := by
  cases ns with
  | nil => decide
  | cons n ns => rw [render_cons]; exact dot_not_mem_slashed h

theorem pathAttrPartition_of_no_dot {p : Str} (h : '.' ∉ p) : pathAttrPartition p = (p, none) := by
  have : isAttrPath p = false := by
    simp [isAttrPath, ATTR_SEP, h]
  simp [pathAttrPartition, this]

theorem split_slashed {ns : List Str} (h : Names ns) : split '/' (slashed ns) = [] :: ns := by
  induction ns with
  | nil => rfl
  | cons n ns ih =>
    have h' := names_cons.1 h
    have h2 := ih h'.2
    cases ns with
    | nil =>
      have : slashed [n] = '/' :: n := by simp [slashed]
      rw [this, split, if_pos rfl, split_of_not_mem h'.1.2.1]
    | cons m ms =>
      have e : slashed (n :: m :: ms) = '/' :: (n ++ '/' :: (m ++ slashed ms)) := by simp [slashed]
      rw [e, split, if_pos rfl, split_append_sep h'.1.2.1]
      have e2 : slashed (m :: ms) = '/' :: (m ++ slashed ms) := rfl
      rw [e2, split, if_pos rfl] at h2
      simp only [List.cons.injEq, true_and] at h2
      rw [h2]

theorem rpartHead_snoc {a n : Str} (h : '/' ∉ n) : rpartHead (a ++ '/' :: n) = a := by
  have := rpartition?_char (c := '/') (a := a) (b := n) h
  simp [rpartHead, SEP, this]

theorem rpartLast_snoc {a n : Str} (h : '/' ∉ n) : rpartLast (a ++ '/' :: n) = n := by
  have := rpartition?_char (c := '/') (a := a) (b := n) h
  simp [rpartLast, SEP, this]

/-- No `//` in a well formed path. -/
theorem no_double_sep {ns : List Str} (h : Names ns) (a b : Str) :
    slashed ns ++ ['/'] ≠ a ++ ['/', '/'] ++ b := by
  induction ns generalizing a with
  | nil =>
    intro he
    have := congrArg List.length he
    simp [slashed] at this
    omega
  | cons n ns ih =>
    have h' := names_cons.1 h
    intro he
    simp only [slashed, List.cons_append, List.append_assoc] at he
    cases a with
    | nil =>
      simp at he
      cases n with
      | nil => exact h'.1.1 rfl
      | cons c cs =>
        simp at he
        exact h'.1.2.1 (by rw [he.1]; simp)
    | cons x xs =>
      simp only [List.cons_append, List.cons.injEq] at he
      obtain ⟨-, he⟩ := he
      rcases List.append_eq_append_iff.1 he with ⟨y, h1, h2⟩ | ⟨y, h1, h2⟩
      · exact ih h'.2 y (by simpa using h2)
      · cases y with
        | nil => exact ih h'.2 [] (by simpa using h2.symm)
        | cons c y =>
          simp at h2
          exact h'.1.2.1 (by rw [h1, ← h2.1]; simp)

theorem replace_of_no_occ {old new s : Str} (h0 : old ≠ []) (h : ∀ a b, s ≠ a ++ old ++ b) :
    replace s old new = s := by
  unfold replace
  induction s with
  | nil => rfl
  | cons c cs ih =>
    rw [replaceGo]
    have hp : ¬ (old.isPrefixOf (c :: cs) = true) := by
      intro hp
      obtain ⟨t, ht⟩ := isPrefixOf_iff.1 hp
      exact h [] t (by simpa using ht)
    rw [if_neg hp, ih (fun a b hab => h (c :: a) b (by simp [hab]))]

/-- Normalising `//` in a well formed path (possibly continued by one separator) changes nothing. -/
theorem replace_slashed {ns : List Str} (h : Names ns) :
    replace (slashed ns) ['/', '/'] ['/'] = slashed ns := by
  apply replace_of_no_occ (by simp)
  intro a b hab
  exact no_double_sep h a (b ++ ['/']) (by rw [hab]; simp)

theorem slashed_getElem_no_double {ns : List Str} (h : Names ns) (a b : Str) :
    slashed ns ≠ a ++ ['/', '/'] ++ b := fun hab =>
  no_double_sep h a (b ++ ['/']) (by rw [hab]; simp)

/-- `'/' + path` collapses to `path`. -/
theorem replace_sep_slashed {ns : List Str} (h : Names ns) (hne : ns ≠ []) :
    replace ('/' :: slashed ns) ['/', '/'] ['/'] = slashed ns := by
  cases ns with
  | nil => exact absurd rfl hne
  | cons n ns =>
    have h' := names_cons.1 h
    unfold replace
    have e : slashed (n :: ns) = '/' :: (n ++ slashed ns) := rfl
    rw [e, replaceGo, if_pos (by simp)]
    have e2 : replaceGo ['/', '/'] ['/'] 1 ('/' :: (n ++ slashed ns))
        = replaceGo ['/', '/'] ['/'] 0 (n ++ slashed ns) := rfl
    show ['/'] ++ replaceGo ['/', '/'] ['/'] 1 ('/' :: (n ++ slashed ns)) = _
    rw [e2]
    have := replace_of_no_occ (old := ['/', '/']) (new := ['/']) (s := n ++ slashed ns) (by simp)
      (fun a b hab => slashed_getElem_no_double h ('/' :: a) b (by rw [e, hab]; simp))
    unfold replace at this
    rw [this]; simp

/-! ### Counting separators -/

theorem count_slashed {ns : List Str} (h : Names ns) : (slashed ns).count '/' = ns.length := by
  induction ns with
  | nil => rfl
  | cons n ns ih =>
    have h' := names_cons.1 h
    simp only [slashed, List.count_cons_self, List.count_append, ih h'.2, List.length_cons]
    have : n.count '/' = 0 := List.count_eq_zero.2 h'.1.2.1
    omega

theorem rsplitHead_slashed {ns : List Str} (h : Names ns) (k : Nat) (hk : k ≤ ns.length) :
    rsplitHead '/' k (slashed ns) = slashed (ns.take (ns.length - k)) := by
  induction k generalizing ns with
  | zero => simp [rsplitHead]
  | succ k ih =>
    have hne : ns ≠ [] := by rintro rfl; simp at hk
    obtain ⟨m, l, rfl⟩ : ∃ m l, ns = m ++ [l] :=
      ⟨ns.dropLast, ns.getLast hne, (List.dropLast_concat_getLast hne).symm⟩
    have hm := names_append.1 h
    have hl := (names_cons.1 hm.2).1
    rw [slashed_snoc, rsplitHead, rpartition?_char hl.2.1]
    simp only
    rw [ih hm.1 (by simp at hk; omega)]
    simp only [List.length_append, List.length_cons, List.length_nil]
    congr 1
    rw [List.take_append_of_le_length (by omega)]
    congr 1; omega

/-! ### Prefixes -/

theorem prefix_slashed_iff {ms ns : List Str} (hm : Names ms) (hn : Names ns) :
    (∃ t, slashed ns = slashed ms ++ '/' :: t) ↔ ∃ rest, rest ≠ [] ∧ ns = ms ++ rest := by
  constructor
  · rintro ⟨t, ht⟩
    induction ms generalizing ns with
    | nil =>
      cases ns with
      | nil => simp [slashed] at ht
      | cons n ns => exact ⟨n :: ns, by simp, rfl⟩
    | cons m ms ih =>
      cases ns with
      | nil => simp [slashed] at ht
      | cons n ns =>
        have hm' := names_cons.1 hm
        have hn' := names_cons.1 hn
        simp only [slashed, List.cons_append, List.append_assoc, List.cons.injEq, true_and] at ht
        have key : n = m ∧ slashed ns = slashed ms ++ '/' :: t := by
          rcases List.append_eq_append_iff.1 ht with ⟨x, h1, h2⟩ | ⟨x, h1, h2⟩
          · -- m = n ++ x
            cases x with
            | nil => simp at h1 h2; exact ⟨h1.symm, h2⟩
            | cons c x =>
              exfalso
              cases ns with
              | nil => simp [slashed] at h2
              | cons k ks =>
                simp [slashed] at h2
                exact hm'.1.2.1 (by rw [h1, ← h2.1]; simp)
          · cases x with
            | nil => simp at h1 h2; exact ⟨h1, h2.symm⟩
            | cons c x =>
              exfalso
              cases ms with
              | nil =>
                simp [slashed] at h2
                exact hn'.1.2.1 (by rw [h1, ← h2.1]; simp)
              | cons k ks =>
                simp [slashed] at h2
                exact hn'.1.2.1 (by rw [h1, ← h2.1]; simp)
        obtain ⟨rest, hr, he⟩ := ih hm'.2 hn'.2 key.2
        exact ⟨rest, hr, by rw [key.1, he]; rfl⟩
  · rintro ⟨rest, hr, rfl⟩
    cases rest with
    | nil => exact absurd rfl hr
    | cons r rs => exact ⟨r ++ slashed rs, by rw [slashed_append]; rfl⟩

/-! ### parents -/

theorem parentPath_render_snoc {ns : List Str} {n : Str} (h : Names (ns ++ [n])) :
    parentPath (render (ns ++ [n])) = render ns := by
  have hm := names_append.1 h
  have hl := (names_cons.1 hm.2).1
  have hw : render (ns ++ [n]) ≠ WORLD := by rw [ne_eq, render_eq_world h]; simp
  unfold parentPath
  rw [if_neg hw, render_snoc, rpartHead_snoc hl.2.1]
  cases ns with
  | nil => simp [slashed, render_nil]
  | cons m ms => rw [if_neg (by simp [slashed]), render_cons]

theorem ancestorLoop_render {ns : List Str} (h : Names ns) :
    ancestorLoop (render ns)
      = (List.range' 1 ns.length).reverse.map (fun k => render (ns.take k)) := by
  generalize hl : ns.length = len
  induction len generalizing ns with
  | zero =>
    have : ns = [] := List.length_eq_zero_iff.1 hl
    subst this
    rw [ancestorLoop, if_pos render_nil]; rfl
  | succ len ih =>
    rcases eq_nil_or_snoc ns with rfl | ⟨m, l, rfl⟩
    · simp at hl
    · have hw : render (m ++ [l]) ≠ WORLD := by rw [ne_eq, render_eq_world h]; simp
      have hlen : m.length = len := by simpa using hl
      rw [ancestorLoop, if_neg hw, parentPath_render_snoc h, ih (names_append.1 h).1 hlen,
        List.range'_concat, List.reverse_append]
      simp only [List.reverse_cons, List.reverse_nil, List.nil_append, List.cons_append,
        List.map_cons]
      congr 1
      · rw [List.take_of_length_le (by simp; omega)]
      · apply List.map_congr_left
        intro k hk
        rw [List.mem_reverse, List.mem_range'_1] at hk
        rw [List.take_append_of_le_length (by omega)]

theorem replaceGo_name {k s : Str} (hk : '/' ∉ k) :
    replaceGo ['/', '/'] ['/'] 0 (k ++ s) = k ++ replaceGo ['/', '/'] ['/'] 0 s := by
  induction k with
  | nil => rfl
  | cons c k ih =>
    simp only [List.mem_cons, not_or] at hk
    rw [List.cons_append, replaceGo, if_neg (by simp [hk.1]), ih hk.2]; rfl

/-- Two paths joined by a separator: the doubled separator at the seam collapses. -/
theorem replace_seam {a b : List Str} (ha : Names a) (hb : Names b) (hb0 : b ≠ []) :
    replace (slashed a ++ '/' :: slashed b) ['/', '/'] ['/'] = slashed a ++ slashed b := by
  unfold replace
  induction a with
  | nil => exact replace_sep_slashed hb hb0
  | cons n ns ih =>
    have h' := names_cons.1 ha
    obtain ⟨c, k, rfl⟩ : ∃ c k, n = c :: k := by
      cases n with
      | nil => exact absurd rfl h'.1.1
      | cons c k => exact ⟨c, k, rfl⟩
    have hc : c ≠ '/' := fun hc => h'.1.2.1 (by simp [hc])
    have e : slashed ((c :: k) :: ns) ++ '/' :: slashed b
        = '/' :: ((c :: k) ++ (slashed ns ++ '/' :: slashed b)) := by simp [slashed]
    rw [e, replaceGo, if_neg (by simp [Ne.symm hc]), replaceGo_name h'.1.2.1, ih h'.2]
    simp [slashed]

theorem foldl_expandStep (ds ns : List Str) (hs : ∀ n ∈ ns, '/' ∉ n) (hw : ∀ w ∈ ds, '/' ∉ w) :
    ds.foldl expandStep (slashed ns) = slashed (walk ns ds) := by
  induction ds generalizing ns with
  | nil => rfl
  | cons d ds ih =>
    rw [List.foldl_cons, walk, expandStep]
    have hw' : ∀ w ∈ ds, '/' ∉ w := fun w h => hw w (by simp [h])
    by_cases h1 : d = ['.', '.']
    · rw [if_pos h1, if_pos h1]
      have : rpartHead (slashed ns) = slashed ns.dropLast := by
        rcases eq_nil_or_snoc ns with rfl | ⟨m, l, rfl⟩
        · rfl
        · rw [slashed_snoc, rpartHead_snoc (hs l (by simp)), List.dropLast_concat]
      rw [this]
      exact ih _ (fun n hn => hs n (List.dropLast_subset _ hn)) hw'
    · rw [if_neg h1, if_neg h1]
      by_cases h2 : d = ['.']
      · rw [if_pos h2, if_pos (.inl h2)]; exact ih _ hs hw'
      · rw [if_neg h2]
        by_cases h3 : d = []
        · rw [if_pos h3, if_pos (.inr h3)]; exact ih _ hs hw'
        · rw [if_neg h3, if_neg (by simp [h2, h3])]
          have : slashed ns ++ [SEP] ++ d = slashed (ns ++ [d]) := by
            rw [slashed_snoc]; simp [SEP]
          rw [this]
          apply ih _ _ hw'
          intro n hn
          rw [List.mem_append, List.mem_singleton] at hn
          rcases hn with hn | rfl
          · exact hs n hn
          · exact hw _ (by simp)

end Nxt.Path
