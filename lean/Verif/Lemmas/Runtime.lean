import Verif.Spec.Runtime
import Verif.Lemmas.Dict
import Verif.Lemmas.Py
/-!
# Lemmas about running a node
-/
namespace Nxt.Rt
open Dict Py Spec NodeData

theorem occurs_iff (s sub : Str) : contains s sub = true ↔ Occurs sub s := by
  induction s with
  | nil =>
    unfold contains Occurs
    rw [List.isEmpty_iff]
    constructor
    · rintro rfl; exact ⟨[], [], rfl⟩
    · rintro ⟨a, b, h⟩
      simp at h; exact h.2.1
  | cons c cs ih =>
    unfold contains
    rw [Bool.or_eq_true, ih, List.isPrefixOf_iff_prefix]
    constructor
    · rintro (⟨t, ht⟩ | ⟨a, b, h⟩)
      · exact ⟨[], t, by rw [← ht]; rfl⟩
      · exact ⟨c :: a, b, by rw [h]; rfl⟩
    · rintro ⟨a, b, h⟩
      cases a with
      | nil => exact .inl ⟨b, h.symm⟩
      | cons x a =>
        simp only [List.cons_append, List.cons.injEq] at h
        exact .inr ⟨a, b, h.2⟩

theorem codeLine_iff (l : Str) : codeLine l = true ↔ Counts l := by
  unfold codeLine Counts startsWith
  cases l with
  | nil => simp
  | cons c l =>
    simp [List.isPrefixOf]
    constructor
    · rintro ⟨⟨a, b⟩, c'⟩; exact ⟨Ne.symm a, Ne.symm b, Ne.symm c'⟩
    · rintro ⟨a, b, c'⟩; exact ⟨⟨Ne.symm a, Ne.symm b⟩, Ne.symm c'⟩

theorem get?_eraseAll {V : Type} (ks : List Str) (g : Dict Str V) (hg : Ok g) (k : Str) :
    get? k (ks.foldl (fun g k => erase k g) g) = if k ∈ ks then none else get? k g := by
  induction ks generalizing g with
  | nil => simp
  | cons a ks ih =>
    rw [List.foldl_cons, ih (erase a g) (ok_erase hg a), get?_erase hg]
    by_cases h : k = a
    · subst h; simp
    · by_cases h2 : k ∈ ks <;> simp [h, h2]

theorem mem_safeKeys (lines good cur : List Str) (k : Str) (hk : k ∈ cur) :
    k ∈ safeKeys lines good cur ↔ k ∈ good ∨ ∃ l ∈ lines, Counts l ∧ Occurs ("global ".toList ++ k) l := by
  unfold safeKeys
  rw [List.mem_append, List.mem_filter, List.mem_filter, List.any_eq_true]
  constructor
  · rintro (h | ⟨-, l, hl, hc⟩)
    · exact .inl h
    · rw [List.mem_filter, codeLine_iff] at hl
      exact .inr ⟨l, hl.1, hl.2, (occurs_iff _ _).1 hc⟩
  · rintro (h | ⟨l, h1, h2, h3⟩)
    · exact .inl h
    · by_cases hg : k ∈ good
      · exact .inl hg
      · exact .inr ⟨⟨hk, by simpa using hg⟩, l, List.mem_filter.2 ⟨h1, (codeLine_iff l).2 h2⟩, (occurs_iff _ _).2 h3⟩

theorem skipped_iff (builtins : List Str) (a : Str) :
    skipped builtins a = false ↔ a ∉ builtins ∧ a ∉ reservedNames ∧ ¬ ∃ b, a = b ++ "__nxt".toList := by
  have e : reservedNames = TRACKED ++ UNTRACKED ++ [A_CACHED] := rfl
  unfold skipped protectedNames endsWith
  rw [Bool.or_eq_false_iff, decide_eq_false_iff_not, e, List.append_assoc, List.append_assoc,
    List.mem_append, not_or, List.append_assoc, and_assoc, ← Bool.not_eq_true, List.isSuffixOf_iff_suffix]
  have : "__nxt".toList <:+ a ↔ ∃ b, a = b ++ "__nxt".toList := by
    constructor
    · rintro ⟨b, h⟩; exact ⟨b, h.symm⟩
    · rintro ⟨b, h⟩; exact ⟨b, h.symm⟩
  rw [this]

theorem prepare_fold (real : Str → Val) (src : Val) (attrs : List Str) (st : RtNode × Dict Str Val × Dict Str Val)
    (hok : Ok st.2.1) :
    let r := attrs.foldl (prepare real src) st
    r.1.inherited = st.1.inherited ∧
    (∀ k, get? k r.1.own = if k ∈ attrs.map (· ++ M_SOURCE) then some src else get? k st.1.own) ∧
    (∀ k, get? k r.2.1 = if k ∈ attrs then some (real k) else get? k st.2.1) ∧
    (∀ k, get? k r.2.2 = if k ∈ attrs then some (real k) else get? k st.2.2) ∧ Ok r.2.1 := by
  induction attrs generalizing st with
  | nil => simp [hok]
  | cons a attrs ih =>
    obtain ⟨h1, h2, h3, h4, h5⟩ := ih (prepare real src st a) (ok_set hok _ _)
    simp only [List.foldl_cons]
    refine ⟨h1, fun k => ?_, fun k => ?_, fun k => ?_, h5⟩
    · rw [h2]
      simp only [prepare, get?_set, List.map_cons, List.mem_cons]
      by_cases hk : k ∈ attrs.map (· ++ M_SOURCE)
      · simp only [hk, or_true, if_true]
      · by_cases hk2 : k = a ++ M_SOURCE <;> simp only [hk, hk2, or_false, if_true, if_false] <;> simp [eq_comm]
    · rw [h3]
      simp only [prepare, get?_set, List.mem_cons]
      by_cases hk : k ∈ attrs
      · simp only [hk, or_true, if_true]
      · by_cases hk2 : k = a
        · subst hk2; simp
        · simp [hk, hk2]
    · rw [h4]
      simp only [prepare, get?_set, List.mem_cons]
      by_cases hk : k ∈ attrs
      · simp only [hk, or_true, if_true]
      · by_cases hk2 : k = a
        · subst hk2; simp
        · simp [hk, hk2]

theorem pushBack_inherited (eq : Val → Val → Bool) (frame cache : Dict Str Val) (n : RtNode) :
    (pushBack eq frame cache n).1.inherited = n.inherited := by
  induction cache generalizing n with
  | nil => rfl
  | cons e cache ih =>
    obtain ⟨a, pre⟩ := e
    rw [pushBack]
    split
    · rfl
    · split
      · exact ih n
      · exact ih _

theorem pushBack_flag (eq : Val → Val → Bool) (frame cache : Dict Str Val) (n : RtNode) :
    (pushBack eq frame cache n).2 = true ↔ ∃ a ∈ keys cache, a ∉ keys frame := by
  induction cache generalizing n with
  | nil => simp [pushBack, keys]
  | cons e cache ih =>
    obtain ⟨a, pre⟩ := e
    rw [pushBack]
    have hk : keys ((a, pre) :: cache) = a :: keys cache := rfl
    rw [hk]
    cases hg : get? a frame with
    | none =>
      have := get?_eq_none.1 hg
      simp only [true_iff]
      exact ⟨a, List.mem_cons_self, this⟩
    | some post =>
      have hm : a ∈ keys frame := get?_isSome.1 (by rw [hg]; rfl)
      have e : (∃ x ∈ a :: keys cache, x ∉ keys frame) ↔ ∃ x ∈ keys cache, x ∉ keys frame := by
        constructor
        · rintro ⟨x, hx, hn⟩
          rcases List.mem_cons.1 hx with rfl | hx
          · exact absurd hm hn
          · exact ⟨x, hx, hn⟩
        · rintro ⟨x, hx, hn⟩; exact ⟨x, List.mem_cons_of_mem _ hx, hn⟩
      rw [e]
      simp only
      split
      · exact ih _
      · exact ih _

/-- A value is pushed back only where the frame differs; everywhere else the own table is as before. -/
theorem pushBack_only (eq : Val → Val → Bool) (frame cache : Dict Str Val) (hc : Ok cache) (n : RtNode) (k : Str) :
    get? k (pushBack eq frame cache n).1.own = get? k n.own ∨
    ∃ pre post, get? k cache = some pre ∧ get? k frame = some post ∧ eq pre post = false ∧
      get? k (pushBack eq frame cache n).1.own = some post := by
  induction cache generalizing n with
  | nil => exact .inl rfl
  | cons e cache ih =>
    obtain ⟨a, pre⟩ := e
    have hk : keys ((a, pre) :: cache) = a :: keys cache := rfl
    have hc' : Ok cache := by unfold Ok at hc ⊢; rw [hk] at hc; exact (List.nodup_cons.1 hc).2
    have ha : a ∉ keys cache := by unfold Ok at hc; rw [hk] at hc; exact (List.nodup_cons.1 hc).1
    have lift : ∀ {p}, get? k cache = some p → get? k ((a, pre) :: cache) = some p := by
      intro p hp
      have : k ∈ keys cache := get?_isSome.1 (by rw [hp]; rfl)
      rw [get?, if_neg (by rintro rfl; exact ha this)]; exact hp
    rw [pushBack]
    cases hg : get? a frame with
    | none => exact .inl rfl
    | some post =>
      simp only
      split
      · rcases ih hc' n with h | ⟨p, q, h1, h2, h3, h4⟩
        · exact .inl h
        · exact .inr ⟨p, q, lift h1, h2, h3, h4⟩
      · rename_i he
        rcases ih hc' { n with own := set a post n.own } with h | ⟨p, q, h1, h2, h3, h4⟩
        · rw [h]
          simp only [get?_set]
          by_cases hka : a = k
          · subst hka
            exact .inr ⟨pre, post, by simp [get?], hg, by simpa using he, by simp⟩
          · left; simp [Ne.symm hka]
        · exact .inr ⟨p, q, lift h1, h2, h3, h4⟩

/-- If nothing is missing from the frame every changed value arrives. -/
theorem pushBack_all (eq : Val → Val → Bool) (frame cache : Dict Str Val) (hc : Ok cache) (n : RtNode)
    (hf : (pushBack eq frame cache n).2 = false) (k : Str) (pre post : Val) (h1 : get? k cache = some pre)
    (h2 : get? k frame = some post) (h3 : eq pre post = false) :
    get? k (pushBack eq frame cache n).1.own = some post := by
  induction cache generalizing n with
  | nil => cases h1
  | cons e cache ih =>
    obtain ⟨a, p⟩ := e
    have hk : keys ((a, p) :: cache) = a :: keys cache := rfl
    have hc' : Ok cache := by unfold Ok at hc ⊢; rw [hk] at hc; exact (List.nodup_cons.1 hc).2
    have ha : a ∉ keys cache := by unfold Ok at hc; rw [hk] at hc; exact (List.nodup_cons.1 hc).1
    rw [pushBack] at hf ⊢
    rw [get?] at h1
    by_cases hka : a = k
    · subst hka
      rw [if_pos rfl] at h1
      cases h1
      rw [h2] at hf ⊢
      simp only [h3, Bool.false_eq_true, if_false] at hf ⊢
      rcases pushBack_only eq frame cache hc' { n with own := set a post n.own } a with h | ⟨p', q, i1, -⟩
      · rw [h, get?_set, if_pos rfl]
      · exact absurd (get?_isSome.1 (by rw [i1]; rfl)) ha
    · rw [if_neg hka] at h1
      cases hg : get? a frame with
      | none => rw [hg] at hf; cases hf
      | some q =>
        rw [hg] at hf
        simp only at hf ⊢
        split at hf
        · rename_i he
          rw [if_pos he]; exact ih hc' n hf h1
        · rename_i he
          rw [if_neg he]; exact ih hc' _ hf h1

end Nxt.Rt
