import Verif.Model.Dict
/-!
# Lemmas about dictionaries
-/
namespace Nxt.Dict
variable {K V : Type} [DecidableEq K]

omit [DecidableEq K] in
@[simp] theorem keys_nil : keys ([] : Dict K V) = [] := rfl
omit [DecidableEq K] in
@[simp] theorem keys_cons (a : K) (v : V) (d : Dict K V) : keys ((a, v) :: d) = a :: keys d := rfl
omit [DecidableEq K] in
@[simp] theorem keys_append (d e : Dict K V) : keys (d ++ e) = keys d ++ keys e := by simp [keys]

omit [DecidableEq K] in
theorem mem_keys_of_mem {d : Dict K V} {k : K} {v : V} (h : (k, v) ∈ d) : k ∈ keys d :=
  List.mem_map.2 ⟨(k, v), h, rfl⟩

omit [DecidableEq K] in
theorem mem_keys {d : Dict K V} {k : K} : k ∈ keys d ↔ ∃ v, (k, v) ∈ d := by
  unfold keys
  rw [List.mem_map]
  constructor
  · rintro ⟨⟨a, v⟩, h, rfl⟩; exact ⟨v, h⟩
  · rintro ⟨v, h⟩; exact ⟨(k, v), h, rfl⟩

theorem get?_eq_none {d : Dict K V} {k : K} : get? k d = none ↔ k ∉ keys d := by
  induction d with
  | nil => simp [get?]
  | cons p d ih =>
    obtain ⟨a, v⟩ := p
    rw [get?, keys_cons]
    by_cases h : a = k
    · simp [h]
    · rw [if_neg h, ih]; simp [Ne.symm h]

theorem get?_isSome {d : Dict K V} {k : K} : (get? k d).isSome ↔ k ∈ keys d := by
  by_cases h : k ∈ keys d
  · simp only [h, iff_true]
    cases hg : get? k d with
    | none => exact absurd h (get?_eq_none.1 hg)
    | some v => rfl
  · simp only [h, iff_false]
    rw [get?_eq_none.2 h]; simp

theorem mem_of_get? {d : Dict K V} {k : K} {v : V} (h : get? k d = some v) : (k, v) ∈ d := by
  induction d with
  | nil => simp [get?] at h
  | cons p d ih =>
    obtain ⟨a, w⟩ := p
    rw [get?] at h
    split at h
    · rename_i he; cases h; subst he; simp
    · exact List.mem_cons_of_mem _ (ih h)

theorem get?_of_mem {d : Dict K V} {k : K} {v : V} (hd : Ok d) (h : (k, v) ∈ d) :
    get? k d = some v := by
  induction d with
  | nil => simp at h
  | cons p d ih =>
    obtain ⟨a, w⟩ := p
    have hd' := List.nodup_cons.1 (show (a :: keys d).Nodup from hd)
    rw [get?]
    rcases List.mem_cons.1 h with he | h
    · cases he; simp
    · rw [if_neg, ih hd'.2 h]
      rintro rfl
      exact hd'.1 (mem_keys_of_mem h)

theorem get?_iff_mem {d : Dict K V} {k : K} {v : V} (hd : Ok d) :
    get? k d = some v ↔ (k, v) ∈ d := ⟨mem_of_get?, get?_of_mem hd⟩

theorem get?_set (d : Dict K V) (k k' : K) (v : V) :
    get? k' (set k v d) = if k' = k then some v else get? k' d := by
  induction d with
  | nil =>
    simp only [set, get?]
    by_cases h : k' = k
    · simp [h]
    · rw [if_neg (Ne.symm h), if_neg h]
  | cons p d ih =>
    obtain ⟨a, w⟩ := p
    rw [set]
    by_cases h : a = k
    · rw [if_pos h]
      simp only [get?]
      subst h
      by_cases h2 : a = k'
      · simp [h2]
      · rw [if_neg h2, if_neg h2, if_neg (Ne.symm h2)]
    · rw [if_neg h]
      simp only [get?]
      rw [ih]
      by_cases h2 : a = k'
      · subst h2; simp [h]
      · rw [if_neg h2, if_neg h2]

theorem keys_set (d : Dict K V) (k : K) (v : V) :
    keys (set k v d) = if k ∈ keys d then keys d else keys d ++ [k] := by
  induction d with
  | nil => simp [set, keys]
  | cons p d ih =>
    obtain ⟨a, w⟩ := p
    rw [set]
    by_cases h : a = k
    · rw [if_pos h]; simp [h]
    · rw [if_neg h]
      simp only [keys_cons, ih, List.mem_cons, Ne.symm h, false_or]
      split <;> simp

theorem mem_keys_set {d : Dict K V} {k k' : K} {v : V} :
    k' ∈ keys (set k v d) ↔ k' = k ∨ k' ∈ keys d := by
  rw [keys_set]
  split
  · rename_i h
    constructor
    · exact .inr
    · rintro (rfl | h')
      · exact h
      · exact h'
  · simp [or_comm]

theorem ok_nil : Ok ([] : Dict K V) := List.nodup_nil

theorem ok_set {d : Dict K V} (h : Ok d) (k : K) (v : V) : Ok (set k v d) := by
  unfold Ok
  rw [keys_set]
  split
  · exact h
  · rename_i hk
    rw [List.nodup_append]
    refine ⟨h, by simp, ?_⟩
    intro a ha b hb he
    rw [List.mem_singleton] at hb
    subst hb; subst he; exact hk ha

/-- Setting a new key appends. -/
theorem set_of_not_mem {d : Dict K V} {k : K} {v : V} (h : k ∉ keys d) : set k v d = d ++ [(k, v)] := by
  induction d with
  | nil => rfl
  | cons p d ih =>
    obtain ⟨a, w⟩ := p
    rw [keys_cons, List.mem_cons, not_or] at h
    rw [set, if_neg (Ne.symm h.1), ih h.2]; rfl

/-- Setting a key to the value it has changes nothing. -/
theorem set_same {d : Dict K V} {k : K} {v : V} (h : get? k d = some v) : set k v d = d := by
  induction d with
  | nil => simp [get?] at h
  | cons p d ih =>
    obtain ⟨a, w⟩ := p
    rw [get?] at h
    rw [set]
    split at h
    · rename_i he; cases h; rw [if_pos he]
    · rename_i he; rw [if_neg he, ih h]

theorem get?_erase {d : Dict K V} (hd : Ok d) (k k' : K) :
    get? k' (erase k d) = if k' = k then none else get? k' d := by
  induction d with
  | nil => simp [erase, get?]
  | cons p d ih =>
    obtain ⟨a, w⟩ := p
    have hd' := List.nodup_cons.1 (show (a :: keys d).Nodup from hd)
    rw [erase]
    by_cases h : a = k
    · rw [if_pos h]
      subst h
      by_cases h2 : k' = a
      · subst h2; rw [if_pos rfl]; exact get?_eq_none.2 hd'.1
      · rw [if_neg h2, get?, if_neg (Ne.symm h2)]
    · rw [if_neg h, get?, get?, ih hd'.2]
      by_cases h2 : a = k'
      · subst h2; simp [h]
      · rw [if_neg h2, if_neg h2]

theorem erase_sublist (d : Dict K V) (k : K) : (erase k d).Sublist d := by
  induction d with
  | nil => exact List.Sublist.refl _
  | cons p d ih =>
    obtain ⟨a, w⟩ := p
    rw [erase]
    split
    · exact List.sublist_cons_self _ _
    · exact ih.cons_cons _

theorem ok_erase {d : Dict K V} (h : Ok d) (k : K) : Ok (erase k d) :=
  ((erase_sublist d k).map Prod.fst).nodup h

theorem mem_keys_erase {d : Dict K V} (h : Ok d) {k k' : K} :
    k' ∈ keys (erase k d) ↔ k' ≠ k ∧ k' ∈ keys d := by
  rw [← get?_isSome, get?_erase h]
  split
  · rename_i he; simp [he]
  · rename_i he; rw [get?_isSome]; simp [he]

theorem erase_of_not_mem {d : Dict K V} {k : K} (h : k ∉ keys d) : erase k d = d := by
  induction d with
  | nil => rfl
  | cons p d ih =>
    obtain ⟨a, w⟩ := p
    rw [keys_cons, List.mem_cons, not_or] at h
    rw [erase, if_neg (Ne.symm h.1), ih h.2]

theorem ok_update {d : Dict K V} (h : Ok d) (e : Dict K V) : Ok (update d e) := by
  unfold update
  induction e generalizing d with
  | nil => exact h
  | cons p e ih => exact ih (ok_set h _ _)

theorem get?_update {d e : Dict K V} (he : Ok e) (k : K) :
    get? k (update d e) = (get? k e).or (get? k d) := by
  unfold update
  induction e generalizing d with
  | nil => simp [get?]
  | cons p e ih =>
    obtain ⟨a, w⟩ := p
    have he' := List.nodup_cons.1 (show (a :: keys e).Nodup from he)
    rw [List.foldl_cons, ih he'.2, get?_set, get?]
    by_cases h : k = a
    · subst h
      rw [if_pos rfl, if_pos rfl, get?_eq_none.2 he'.1]; rfl
    · rw [if_neg h, if_neg (Ne.symm h)]

/-- Lookup only depends on the set of entries. -/
theorem get?_perm {d e : Dict K V} (hd : Ok d) (hp : d.Perm e) (k : K) : get? k d = get? k e := by
  have he : Ok e := (hp.map Prod.fst).nodup_iff.1 hd
  cases h : get? k e with
  | none =>
    rw [get?_eq_none] at h ⊢
    intro hk; exact h ((hp.map Prod.fst).mem_iff.1 hk)
  | some v =>
    rw [get?_iff_mem he] at h
    rw [get?_iff_mem hd]
    exact hp.mem_iff.2 h

/-- Two dictionaries with distinct keys and the same lookups have the same entries. -/
theorem perm_of_get? {d e : Dict K V} (hd : Ok d) (he : Ok e) (h : ∀ k, get? k d = get? k e) :
    d.Perm e := by
  have nd : ∀ {d : Dict K V}, Ok d → d.Nodup := fun {d} h => List.Pairwise.of_map Prod.fst
    (fun a b hab he => hab (by rw [he])) h
  haveI : ∀ a b : K × V, Decidable (a = b) := fun _ _ => Classical.propDecidable _
  rw [List.perm_ext_iff_of_nodup (nd hd) (nd he)]
  rintro ⟨k, v⟩
  rw [← get?_iff_mem hd, ← get?_iff_mem he, h]

/-! ### strings -/

theorem strLe_total (a b : Str) : (strLe a b || strLe b a) = true := by
  induction a generalizing b with
  | nil => simp [strLe]
  | cons c cs ih =>
    cases b with
    | nil => simp [strLe]
    | cons d ds =>
      simp only [strLe]
      have := ih ds
      by_cases h1 : c.toNat < d.toNat
      · simp [h1]
      · by_cases h2 : d.toNat < c.toNat
        · simp [h2, h1]
        · simp [h1, h2]; simpa using this

theorem strLe_trans (a b c : Str) : strLe a b = true → strLe b c = true → strLe a c = true := by
  induction a generalizing b c with
  | nil => simp [strLe]
  | cons x xs ih =>
    cases b with
    | nil => simp [strLe]
    | cons y ys =>
      cases c with
      | nil => simp [strLe]
      | cons z zs =>
        simp only [strLe]
        have := ih ys zs
        grind

theorem strLe_antisymm (a b : Str) (h1 : strLe a b = true) (h2 : strLe b a = true) : a = b := by
  induction a generalizing b with
  | nil => cases b with
    | nil => rfl
    | cons _ _ => simp [strLe] at h2
  | cons c cs ih =>
    cases b with
    | nil => simp [strLe] at h1
    | cons d ds =>
      simp only [strLe] at h1 h2
      by_cases h3 : c.toNat < d.toNat
      · have : ¬ d.toNat < c.toNat := by omega
        simp [h3, this] at h2
      · by_cases h4 : d.toNat < c.toNat
        · simp [h3, h4] at h1
        · simp [h3, h4] at h1 h2
          have e : c = d := Char.ext (UInt32.toNat_inj.1 (by
            have : c.toNat = d.toNat := by omega
            exact this))
          rw [e, ih ds h1 h2]

omit [DecidableEq K] in
theorem sortByKey_perm (d : Dict Str V) : (sortByKey d).Perm d := List.mergeSort_perm _ _

theorem sortByKey_sorted (d : Dict Str V) :
    (sortByKey d).Pairwise (fun a b => strLe a.1 b.1 = true) :=
  List.pairwise_mergeSort (fun a b c => strLe_trans a.1 b.1 c.1) (fun a b => strLe_total a.1 b.1) d

end Nxt.Dict
