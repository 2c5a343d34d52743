import Verif.Model.NodeData
import Verif.Lemmas.Layer
/-!
# Lemmas about saving and loading node data
-/
namespace Nxt.Dict

/-- Folding conditional assignments of new, distinct keys appends them. -/
theorem foldl_set_filter {K V : Type} [DecidableEq K] (p : K → Bool) (f : K → V) (ks : List K) (d : Dict K V)
    (hn : ks.Nodup) (hd : ∀ k ∈ ks, k ∉ keys d) :
    ks.foldl (fun d k => if p k then set k (f k) d else d) d
      = d ++ (ks.filter p).map (fun k => (k, f k)) := by
  induction ks generalizing d with
  | nil => simp
  | cons k ks ih =>
    have hn' := List.nodup_cons.1 hn
    rw [List.foldl_cons]
    by_cases h : p k = true
    · rw [if_pos h, set_of_not_mem (hd k (by simp)), ih _ hn'.2]
      · simp [h]
      · intro k' hk' hm
        rw [keys_append, List.mem_append] at hm
        rcases hm with hm | hm
        · exact hd k' (by simp [hk']) hm
        · simp [keys] at hm
          subst hm
          exact hn'.1 hk'
    · rw [if_neg h, ih _ hn'.2 (fun k' hk' => hd k' (by simp [hk']))]
      simp [h]

theorem get?_foldl_set {K V : Type} [DecidableEq K] (f : K → V) (ks : List K) (d : Dict K V) (x : K) :
    get? x (ks.foldl (fun d k => set k (f k) d) d) = if x ∈ ks then some (f x) else get? x d := by
  induction ks generalizing d with
  | nil => simp
  | cons k ks ih =>
    rw [List.foldl_cons, ih, get?_set]
    by_cases h : x ∈ ks
    · simp [h]
    · by_cases h2 : x = k
      · simp [h2]
      · simp [h, h2]

theorem ok_foldl_set {K V A : Type} [DecidableEq K] (g : A → K) (f : A → V) (ks : List A) (d : Dict K V) (h : Ok d) :
    Ok (ks.foldl (fun d k => set (g k) (f k) d) d) := by
  induction ks generalizing d with
  | nil => exact h
  | cons k ks ih => exact ih _ (ok_set h _ _)

/-- Sorting by key only depends on the entries. -/
theorem sortByKey_congr {V : Type} {d e : Dict Str V} (hd : Ok d) (h : d.Perm e) : sortByKey d = sortByKey e := by
  have hp : (sortByKey d).Perm (sortByKey e) := (sortByKey_perm d).trans (h.trans (sortByKey_perm e).symm)
  refine hp.eq_of_pairwise (le := fun a b => strLe a.1 b.1 = true) ?_ (sortByKey_sorted d) (sortByKey_sorted e)
  rintro ⟨a, v⟩ ⟨b, w⟩ ha hb h1 h2
  have e1 : a = b := strLe_antisymm _ _ h1 h2
  subst e1
  have ha' : (a, v) ∈ d := (sortByKey_perm d).mem_iff.1 ha
  have hb' : (a, w) ∈ d := h.mem_iff.2 ((sortByKey_perm e).mem_iff.1 hb)
  have := get?_of_mem hd ha'
  rw [get?_of_mem hd hb'] at this
  cases this; rfl

theorem ok_sortByKey {V : Type} {d : Dict Str V} (h : Ok d) : Ok (sortByKey d) :=
  ((sortByKey_perm d).map Prod.fst).nodup_iff.2 h

theorem get?_sortByKey {V : Type} {d : Dict Str V} (h : Ok d) (k : Str) : get? k (sortByKey d) = get? k d :=
  get?_perm (ok_sortByKey h) (sortByKey_perm d) k

theorem ok_perm {K V : Type} {d e : Dict K V} (h : Ok d) (hp : d.Perm e) : Ok e :=
  (hp.map Prod.fst).nodup_iff.1 h

end Nxt.Dict

namespace Nxt.NodeData
open Dict Layer Py

/-! ### Names -/

/-- The table key of the sub attribute `k` of `a`. -/
def full (a k : Str) : Str := if k = K_VALUE then a else a ++ ("_".toList ++ k ++ "__nxt".toList)

/-- Sub attributes known to the loader. -/
def isKey (k : Str) : Prop := k = K_VALUE ∨ "_".toList ++ k ++ "__nxt".toList ∈ METAS

instance (k : Str) : Decidable (isKey k) := by unfold isKey; infer_instance

theorem meta_ne_nil {m : Str} (h : m ∈ METAS) : m ≠ [] := by
  intro h2; subst h2; revert h; decide +kernel

theorem meta_inj {a b m m' : Str} (hm : m ∈ METAS) (hm' : m' ∈ METAS) (h : a ++ m = b ++ m') :
    a = b ∧ m = m' := by
  have key : ∀ m ∈ METAS, ∀ m' ∈ METAS, m <:+ m' → m = m' := by decide +kernel
  have hs : m = m' := by
    rcases List.suffix_or_suffix_of_suffix (l₃ := b ++ m') (h ▸ List.suffix_append a m)
      (List.suffix_append b m') with h1 | h1
    · exact key m hm m' hm' h1
    · exact (key m' hm' m hm h1).symm
  subst hs
  exact ⟨List.append_cancel_right h, rfl⟩

theorem user_not_meta {b : List Str} {k : Str} (h : isUser b k = true) {a m : Str} (hm : m ∈ METAS) :
    k ≠ a ++ m := by
  intro he
  unfold isUser at h
  simp only [Bool.and_eq_true, Bool.not_eq_true', List.any_eq_false] at h
  have h1 := h.2 m hm
  apply h1
  unfold endsWith
  rw [List.isSuffixOf_iff_suffix, he]
  exact List.suffix_append a m

theorem user_not_internal {b : List Str} {k : Str} (h : isUser b k = true) : k ∉ ALL := by
  unfold isUser at h
  simp only [Bool.and_eq_true, Bool.not_eq_true', decide_eq_false_iff_not, List.mem_append] at h
  unfold ALL
  rw [List.mem_append]
  intro h2
  rcases h2 with h2 | h2
  · exact h.1 (.inl (.inl (.inr h2)))
  · exact h.1 (.inl (.inr h2))

theorem internal_not_meta {a x m : Str} (ha : a ∈ ALL) (hm : m ∈ METAS) : a ≠ x ++ m := by
  intro he
  have key : ∀ a ∈ ALL, ∀ m ∈ METAS, ¬ m <:+ a := by decide +kernel
  exact key a ha m hm (he ▸ List.suffix_append x m)

theorem full_inj {b : List Str} {a a' k k' : Str} (ha : isUser b a = true) (ha' : isUser b a' = true)
    (hk : isKey k) (hk' : isKey k') (h : full a k = full a' k') : a = a' ∧ k = k' := by
  unfold full at h
  by_cases h1 : k = K_VALUE
  · by_cases h2 : k' = K_VALUE
    · rw [if_pos h1, if_pos h2] at h; exact ⟨h, by rw [h1, h2]⟩
    · rw [if_pos h1, if_neg h2] at h
      exact absurd h (user_not_meta ha (hk'.resolve_left h2))
  · by_cases h2 : k' = K_VALUE
    · rw [if_neg h1, if_pos h2] at h
      exact absurd h.symm (user_not_meta ha' (hk.resolve_left h1))
    · rw [if_neg h1, if_neg h2] at h
      obtain ⟨e1, e2⟩ := meta_inj (hk.resolve_left h1) (hk'.resolve_left h2) h
      exact ⟨e1, by
        rw [List.append_assoc, List.append_assoc] at e2
        exact List.append_cancel_right (List.append_cancel_left e2)⟩

theorem full_not_internal {b : List Str} {a k x : Str} (ha : isUser b a = true) (hk : isKey k) (hx : x ∈ ALL) :
    full a k ≠ x := by
  unfold full
  split
  · rintro rfl; exact user_not_internal ha hx
  · rename_i h; exact fun h' => internal_not_meta hx (hk.resolve_left h) h'.symm

theorem full_not_tracked_source {b : List Str} {a k x : Str} (ha : isUser b a = true) (hk : isKey k) (hx : x ∈ ALL) :
    full a k ≠ x ++ M_SOURCE := by
  have hs : M_SOURCE ∈ METAS := by decide +kernel
  unfold full
  split
  · exact user_not_meta ha hs
  · rename_i h
    intro he
    have := (meta_inj (hk.resolve_left h) hs he).1
    exact user_not_internal ha (this ▸ hx)

@[simp] theorem full_value (a : Str) : full a K_VALUE = a := if_pos rfl
theorem full_comment (a : Str) : full a K_COMMENT = a ++ M_COMMENT := by
  have : "_".toList ++ K_COMMENT ++ "__nxt".toList = M_COMMENT := by decide +kernel
  unfold full; rw [if_neg (by decide +kernel), this]
theorem full_type (a : Str) : full a K_TYPE = a ++ M_TYPE := by
  have : "_".toList ++ K_TYPE ++ "__nxt".toList = M_TYPE := by decide +kernel
  unfold full; rw [if_neg (by decide +kernel), this]
theorem full_source (a : Str) : full a K_SOURCE = a ++ M_SOURCE := by
  have : "_".toList ++ K_SOURCE ++ "__nxt".toList = M_SOURCE := by decide +kernel
  unfold full; rw [if_neg (by decide +kernel), this]

theorem isKey_value : isKey K_VALUE := .inl rfl
theorem isKey_comment : isKey K_COMMENT := .inr (by decide +kernel)
theorem isKey_type : isKey K_TYPE := .inr (by decide +kernel)
theorem isKey_source : isKey K_SOURCE := .inr (by decide +kernel)

/-! ### Loading -/

theorem loadSub_step (a k : Str) (v : Val) (rest : List (Str × Val)) (attrs : Dict Str Val) :
    loadSub a ((k, v) :: rest) attrs
      = loadSub a rest (if isKey k then set (full a k) v attrs else attrs) := by
  rw [loadSub]
  by_cases h : k = K_VALUE
  · rw [if_pos h, if_pos (.inl h)]; rw [h, full_value]
  · rw [if_neg h]
    by_cases h2 : "_".toList ++ k ++ "__nxt".toList ∈ METAS
    · rw [if_pos h2, if_pos (.inr h2)]; unfold full; rw [if_neg h]
    · rw [if_neg h2, if_neg]
      rintro (h3 | h3)
      · exact h h3
      · exact h2 h3

theorem get?_loadSub {b : List Str} {a : Str} (ha : isUser b a = true) (data : Dict Str Val) (hd : Ok data)
    (attrs : Dict Str Val) :
    (∀ k, isKey k → get? (full a k) (loadSub a data attrs) = (get? k data).or (get? (full a k) attrs)) ∧
    (∀ x, (∀ k, isKey k → x ≠ full a k) → get? x (loadSub a data attrs) = get? x attrs) := by
  induction data generalizing attrs with
  | nil => exact ⟨fun k _ => by simp [loadSub, get?], fun x _ => rfl⟩
  | cons p data ih =>
    obtain ⟨k0, v⟩ := p
    have hd' := List.nodup_cons.1 (show (k0 :: keys data).Nodup from hd)
    rw [loadSub_step]
    obtain ⟨ih1, ih2⟩ := ih hd'.2 (if isKey k0 then set (full a k0) v attrs else attrs)
    constructor
    · intro k hk
      rw [ih1 k hk, get?]
      by_cases h : k0 = k
      · subst h
        rw [if_pos rfl, if_pos hk, get?_set, if_pos rfl, get?_eq_none.2 hd'.1]; rfl
      · rw [if_neg h]
        by_cases h0 : isKey k0
        · rw [if_pos h0, get?_set, if_neg (fun he => h (full_inj ha ha hk h0 he).2.symm)]
        · rw [if_neg h0]
    · intro x hx
      rw [ih2 x hx]
      by_cases h0 : isKey k0
      · rw [if_pos h0, get?_set, if_neg (hx k0 h0)]
      · rw [if_neg h0]

/-- What the loader starts from for an attribute. -/
def base (src : Val) (attrs : Dict Str Val) (a k : Str) : Option Val :=
  if k = K_VALUE then some .none else if k = K_SOURCE then some src else get? (full a k) attrs

theorem loadAttrs_spec {b : List Str} (src : Val) (L : Dict Str Val) (hL : Ok L)
    (hu : ∀ a ∈ keys L, isUser b a = true)
    (hv : ∀ a v, (a, v) ∈ L → ∃ data, v = .dict data ∧ Ok data) (attrs : Dict Str Val) :
    ∃ r, loadAttrs src L attrs = some r ∧
      (∀ a data k, (a, .dict data) ∈ L → isKey k →
        get? (full a k) r = (get? k data).or (base src attrs a k)) ∧
      (∀ x, (∀ a ∈ keys L, ∀ k, isKey k → x ≠ full a k) → get? x r = get? x attrs) := by
  induction L generalizing attrs with
  | nil => exact ⟨attrs, rfl, fun a d k h => by simp at h, fun x _ => rfl⟩
  | cons p L ih =>
    obtain ⟨a0, v0⟩ := p
    obtain ⟨data0, rfl, hd0⟩ := hv a0 v0 (by simp)
    have hL' := List.nodup_cons.1 (show (a0 :: keys L).Nodup from hL)
    have ha0 : isUser b a0 = true := hu a0 (by simp)
    have hsrc : a0 ++ M_SOURCE = full a0 K_SOURCE := (full_source a0).symm
    obtain ⟨s1, s2⟩ := get?_loadSub ha0 data0 hd0 (set (a0 ++ M_SOURCE) src (set a0 .none attrs))
    obtain ⟨r, hr, r1, r2⟩ := ih hL'.2 (fun a ha => hu a (by simp [ha]))
      (fun a v h => hv a v (by simp [h])) (loadSub a0 data0 (set (a0 ++ M_SOURCE) src (set a0 .none attrs)))
    -- lookups of other attributes are not touched by the first step
    have other : ∀ x, (∀ k, isKey k → x ≠ full a0 k) →
        get? x (loadSub a0 data0 (set (a0 ++ M_SOURCE) src (set a0 .none attrs))) = get? x attrs := by
      intro x hx
      rw [s2 x hx, get?_set, if_neg (hsrc ▸ hx K_SOURCE isKey_source), get?_set,
        if_neg (by have := hx K_VALUE isKey_value; rwa [full_value] at this)]
    refine ⟨r, by rw [loadAttrs]; exact hr, ?_, ?_⟩
    · intro a data k hm hk
      rcases List.mem_cons.1 hm with he | hm
      · cases he
        rw [r2]
        · rw [s1 k hk]
          congr 1
          unfold base
          by_cases h1 : k = K_VALUE
          · subst h1
            rw [if_pos rfl, full_value, get?_set, if_neg, get?_set, if_pos rfl]
            exact user_not_meta ha0 (by decide +kernel)
          · rw [if_neg h1]
            by_cases h2 : k = K_SOURCE
            · subst h2
              rw [if_pos rfl, hsrc, get?_set, if_pos rfl]
            · rw [if_neg h2, get?_set, if_neg, get?_set, if_neg]
              · intro he
                exact h1 (full_inj ha0 ha0 hk isKey_value (by simpa using he)).2
              · rw [hsrc]; exact fun he => h2 (full_inj ha0 ha0 hk isKey_source he).2
        · intro a' ha' k' hk' he
          have := (full_inj ha0 (hu a' (by simp [ha'])) hk hk' he).1
          subst this
          exact hL'.1 ha'
      · rw [r1 a data k hm hk]
        congr 1
        unfold base
        split
        · rfl
        · split
          · rfl
          · apply other
            intro k' hk' he
            have hma := mem_keys_of_mem hm
            have := (full_inj (hu a (by simp [hma])) ha0 hk hk' he).1
            subst this
            exact hL'.1 hma
    · intro x hx
      rw [r2 x (fun a ha => hx a (by simp [ha])), other x (hx a0 (by simp))]

theorem ok_loadSub (a : Str) (data : List (Str × Val)) (attrs : Dict Str Val) (h : Ok attrs) :
    Ok (loadSub a data attrs) := by
  induction data generalizing attrs with
  | nil => exact h
  | cons p data ih =>
    obtain ⟨k, v⟩ := p
    rw [loadSub_step]
    apply ih
    split
    · exact ok_set h _ _
    · exact h

theorem ok_loadAttrs (src : Val) (L : List (Str × Val)) (attrs : Dict Str Val) (h : Ok attrs)
    (r : Dict Str Val) (hr : loadAttrs src L attrs = some r) : Ok r := by
  induction L generalizing attrs with
  | nil => rw [loadAttrs] at hr; cases hr; exact h
  | cons p L ih =>
    obtain ⟨a, v⟩ := p
    cases v <;> simp only [loadAttrs] at hr <;> try cases hr
    exact ih _ (ok_loadSub _ _ _ (ok_set (ok_set h _ _) _ _)) hr

/-! ### Saving -/

theorem userAttrs_eq (b : List Str) (n : Dict Str Val) (hn : Ok n) :
    userAttrs b n = ((keys n).filter (isUser b)).map (fun k => (k, Val.dict (subAttrs n k))) := by
  unfold userAttrs
  rw [foldl_set_filter (isUser b) (fun k => Val.dict (subAttrs n k)) (keys n) [] hn (by simp)]
  rfl

theorem keys_userAttrs (b : List Str) (n : Dict Str Val) (hn : Ok n) :
    keys (userAttrs b n) = (keys n).filter (isUser b) := by
  rw [userAttrs_eq b n hn]; simp [keys, Function.comp_def]

theorem ok_userAttrs (b : List Str) (n : Dict Str Val) (hn : Ok n) : Ok (userAttrs b n) := by
  unfold Ok; rw [keys_userAttrs b n hn]; exact nodup_filter _ hn

/-- The sub attributes saved, before sorting. -/
theorem subAttrs_eq (n : Dict Str Val) (k : Str) :
    subAttrs n k =
      (if (getAttr n (k ++ M_COMMENT)).truthy then [(K_COMMENT, getAttr n (k ++ M_COMMENT))] else []) ++
      (if (getAttr n (k ++ M_TYPE)).truthy then [(K_TYPE, getAttr n (k ++ M_TYPE))] else []) ++
      (if (getAttr n k).truthy && (getAttr n k).serialisable then [(K_VALUE, getAttr n k)] else []) := by
  unfold subAttrs
  have h1 : K_COMMENT ≠ K_TYPE := by decide +kernel
  have h2 : K_COMMENT ≠ K_VALUE := by decide +kernel
  have h3 : K_TYPE ≠ K_VALUE := by decide +kernel
  have l1 : strLe K_COMMENT K_TYPE = true := by decide +kernel
  have l2 : strLe K_COMMENT K_VALUE = true := by decide +kernel
  have l3 : strLe K_TYPE K_VALUE = true := by decide +kernel
  generalize getAttr n (k ++ M_COMMENT) = c
  generalize getAttr n (k ++ M_TYPE) = t
  generalize getAttr n k = v
  unfold sortByKey
  rw [List.mergeSort_of_pairwise]
  · cases c.truthy <;> cases t.truthy <;> cases (v.truthy && v.serialisable) <;> simp [Dict.set, h1, h2, h3]
  · cases c.truthy <;> cases t.truthy <;> cases (v.truthy && v.serialisable) <;>
      simp [Dict.set, h1, h2, h3, l1, l2, l3]

theorem ok_subAttrs (n : Dict Str Val) (k : Str) : Ok (subAttrs n k) := by
  unfold Ok
  rw [subAttrs_eq]
  have h1 : K_COMMENT ≠ K_TYPE := by decide +kernel
  have h2 : K_COMMENT ≠ K_VALUE := by decide +kernel
  have h3 : K_TYPE ≠ K_VALUE := by decide +kernel
  cases (getAttr n (k ++ M_COMMENT)).truthy <;> cases (getAttr n (k ++ M_TYPE)).truthy <;>
    cases ((getAttr n k).truthy && (getAttr n k).serialisable) <;> simp [keys, h1, h2, h3]

theorem get?_subAttrs (n : Dict Str Val) (k : Str) :
    get? K_COMMENT (subAttrs n k)
      = (if (getAttr n (k ++ M_COMMENT)).truthy then some (getAttr n (k ++ M_COMMENT)) else none) ∧
    get? K_TYPE (subAttrs n k)
      = (if (getAttr n (k ++ M_TYPE)).truthy then some (getAttr n (k ++ M_TYPE)) else none) ∧
    get? K_VALUE (subAttrs n k)
      = (if (getAttr n k).truthy && (getAttr n k).serialisable then some (getAttr n k) else none) ∧
    get? K_SOURCE (subAttrs n k) = none := by
  rw [subAttrs_eq]
  have h1 : K_COMMENT ≠ K_TYPE := by decide +kernel
  have h2 : K_COMMENT ≠ K_VALUE := by decide +kernel
  have h3 : K_TYPE ≠ K_VALUE := by decide +kernel
  have h4 : K_COMMENT ≠ K_SOURCE := by decide +kernel
  have h5 : K_TYPE ≠ K_SOURCE := by decide +kernel
  have h6 : K_VALUE ≠ K_SOURCE := by decide +kernel
  cases (getAttr n (k ++ M_COMMENT)).truthy <;> cases (getAttr n (k ++ M_TYPE)).truthy <;>
    cases ((getAttr n k).truthy && (getAttr n k).serialisable) <;>
    simp [get?, h1, h2, h3, h4, h5, h6, h1.symm, h2.symm, h3.symm]

theorem ok_saveInternals (n : Dict Str Val) (attrs : List Str) (d : Dict Str Val) (h : Ok d) :
    Ok (saveInternals n attrs d) := by
  unfold saveInternals
  induction attrs generalizing d with
  | nil => exact h
  | cons a as ih =>
    rw [List.foldl_cons]
    apply ih
    split
    · exact ok_set h _ _
    · exact h

theorem get?_saveInternals (n : Dict Str Val) (attrs : List Str) (d : Dict Str Val)
    (hinj : ∀ a ∈ attrs, ∀ a' ∈ attrs, saveKey a = saveKey a' → a = a') (x : Str) :
    (∀ a ∈ attrs, x = saveKey a → get? x (saveInternals n attrs d)
      = if (getAttr n a).hasOpinion then some (getAttr n a) else get? x d) ∧
    ((∀ a ∈ attrs, x ≠ saveKey a) → get? x (saveInternals n attrs d) = get? x d) := by
  unfold saveInternals
  induction attrs generalizing d with
  | nil => simp
  | cons a as ih =>
    rw [List.foldl_cons]
    obtain ⟨ih1, ih2⟩ := ih (if (getAttr n a).hasOpinion then set (saveKey a) (getAttr n a) d else d)
      (fun p hp q hq => hinj p (by simp [hp]) q (by simp [hq]))
    constructor
    · intro a' ha' hx
      by_cases hm : a' ∈ as
      · rw [ih1 a' hm hx]
        by_cases ho : (getAttr n a').hasOpinion = true
        · rw [if_pos ho, if_pos ho]
        · rw [if_neg ho, if_neg ho]
          by_cases he : a' = a
          · subst he; rw [if_neg ho]
          · split
            · rw [get?_set, if_neg]
              rw [hx]; exact fun h => he (hinj a' (by simp [hm]) a (by simp) h)
            · rfl
      · have he : a' = a := by
          rcases List.mem_cons.1 ha' with h | h
          · exact h
          · exact absurd h hm
        subst he
        rw [ih2]
        · split
          · rw [get?_set, if_pos hx]
          · rfl
        · intro q hq he
          have := hinj a' (by simp) q (by simp [hq]) (by rw [← hx, he])
          exact hm (this ▸ hq)
    · intro hx
      rw [ih2 (fun q hq => hx q (by simp [hq]))]
      split
      · rw [get?_set, if_neg (hx a (by simp))]
      · rfl

theorem savedAttrs_sub (n : Dict Str Val) : ∀ a ∈ savedAttrs n, a ∈ SAVED := by
  unfold savedAttrs
  have : ∀ a ∈ WORLD_SAVED, a ∈ SAVED := by decide +kernel
  split
  · split
    · exact this
    · exact fun _ h => h
  · exact fun _ h => h

theorem saveKey_inj_saved : ∀ a ∈ SAVED, ∀ a' ∈ SAVED, saveKey a = saveKey a' → a = a' := by decide +kernel

theorem saveKey_ne_attrs : ∀ a ∈ SAVED, ATTRS ≠ saveKey a := by decide +kernel

/-- The user attributes entry of the save data before ordering. -/
def userPart (b : List Str) (n : Dict Str Val) : Dict Str Val :=
  if (userAttrs b n).isEmpty then [] else set ATTRS (.dict (sortByKey (userAttrs b n))) []

theorem ok_userPart (b : List Str) (n : Dict Str Val) : Ok (userPart b n) := by
  unfold userPart; split
  · exact ok_nil
  · exact ok_set ok_nil _ _

end Nxt.NodeData
