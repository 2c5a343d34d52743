import Verif.Lemmas.Comp
/-!
# Properties C30–C32, C54: composition of layers
-/
namespace Nxt.Props
open Dict NodeData Comp Spec

/-! ## C31 -/

/-- C31: the composite has exactly one node for every path of some layer. -/
theorem C31_union (layers : List LayerNodes) (hl : ∀ l ∈ layers, Ok l) :
    (keys (compPre layers)).Nodup ∧ ∀ p, p ∈ keys (compPre layers) ↔ ∃ l ∈ layers, p ∈ keys l := by
  have hk : keys (compPre layers) = keys (baseMapping layers) := by
    unfold compPre keys; rw [List.map_map]; rfl
  refine ⟨by rw [hk]; exact (baseMapping_spec layers hl).1, fun p => ?_⟩
  have := get?_compPre layers hl p
  rw [← get?_isSome, this]
  have hs : stack layers p = [] ↔ ∀ l ∈ layers, p ∉ keys l := by
    unfold stack
    rw [List.filterMap_eq_nil_iff]
    exact ⟨fun h l hl => get?_eq_none.1 (h l hl), fun h l hl => get?_eq_none.2 (h l hl)⟩
  split
  · rename_i h
    rw [hs] at h
    simp only [Option.isSome_none, Bool.false_eq_true, false_iff, not_exists, not_and]
    exact h
  · rename_i h
    rw [hs] at h
    simp only [Option.isSome_some, true_iff]
    refine Classical.byContradiction (fun hc => h (fun l hl hp => hc ⟨l, hl, hp⟩))

/-! ## C30 -/

/-- C30: an opinion attribute of a composite node has the value of the strongest layer with an opinion,
and its source names that layer; without any opinion the composite has none. -/
theorem C30_strongest_opinion (layers : List LayerNodes) (hl : ∀ l ∈ layers, Ok l) (p : Str) (c : CompNode)
    (hc : get? p (compPre layers) = some c) (a : Str) (ha : a ∈ opinionAttrs) :
    (∀ n, strongest (stack layers p) a = some n →
      c.attr a = getAttr n a ∧ c.attr (a ++ "_source__nxt".toList) = .src (sourceOf n) p) ∧
    (strongest (stack layers p) a = none → (c.attr a).hasOpinion = false) := by
  rw [get?_compPre layers hl] at hc
  split at hc
  · cases hc
  rename_i hne
  generalize stack layers p = bases at hc hne
  have hc := (Option.some.inj hc).symm
  have ha' := (mem_overload a).2 ha
  obtain ⟨n1, n2, n3, n4, n5, n6⟩ := overload_names
  have hM : "_source__nxt".toList = M_SOURCE := rfl
  rw [hM]
  have hown : ∀ x, x ≠ A_CHILD_ORDER → get? x c.own =
      get? x (bases.reverse.foldl (overloadBase p)
        ((match bases.head? with | some n => [(A_NAME, getAttr n A_NAME)] | none => []),
         (match bases.getLast? with | some n => childOrder n | none => []))).1 := by
    intro x hx
    rw [hc]
    unfold compNode
    simp only
    rw [get?_set, if_neg hx]
    rfl
  obtain ⟨o1, o2⟩ := overload_fold p bases
    (match bases.head? with | some n => [(A_NAME, getAttr n A_NAME)] | none => [])
    (match bases.getLast? with | some n => childOrder n | none => []) a ha'
  have hane : a ≠ A_CHILD_ORDER := by rintro rfl; exact n2 ha'
  rw [← hown a hane] at o1
  rw [← hown (a ++ M_SOURCE) (Ne.symm (n3 a ha'))] at o2
  constructor
  · intro n hn
    rw [hn] at o1 o2
    unfold CompNode.attr
    rw [o1, o2]
    exact ⟨rfl, rfl⟩
  · intro hn
    rw [hn] at o1
    have hnone : get? a c.own = none := by
      rw [o1]
      simp only
      cases bases.head? with
      | none => rfl
      | some n =>
        simp only [get?]
        rw [if_neg (by rintro rfl; exact n5 ha')]
    unfold CompNode.attr
    rw [hnone, Option.none_or]
    have hb : c.bases = bases := by rw [hc]; rfl
    rw [hb]
    unfold strongest at hn
    rw [List.find?_eq_none] at hn
    cases hf : bases.findSome? (get? a) with
    | some v =>
      obtain ⟨n, hn1, hn2⟩ := List.exists_of_findSome?_eq_some hf
      have := hn n hn1
      rw [getAttr_of_get? hn2] at this
      simpa using this
    | none =>
      rw [List.findSome?_eq_none_iff] at hf
      obtain ⟨n, hn1⟩ := List.exists_mem_of_ne_nil _ hne
      have := hn n hn1
      unfold getAttr at this
      rw [hf n hn1] at this
      simpa using this

/-- C30 for attributes made by the user: the strongest layer which has the attribute decides. -/
theorem C30_user_attribute (layers : List LayerNodes) (hl : ∀ l ∈ layers, Ok l) (p : Str) (c : CompNode)
    (hc : get? p (compPre layers) = some c) (k : Str) (b : List Str) (hk : UserName b k) (n : Dict Str Val)
    (hn : (stack layers p).find? (fun n => (get? k n).isSome) = some n) :
    c.attr k = getAttr n k := by
  rw [get?_compPre layers hl] at hc
  split at hc
  · cases hc
  generalize stack layers p = bases at hc hn
  have hc := (Option.some.inj hc).symm
  have hint : k ∉ internalNames := hk.2.1
  have hov : k ∉ OVERLOAD := by
    have : ∀ x ∈ OVERLOAD, x ∈ internalNames := by decide +kernel
    exact fun h => hint (this k h)
  have hsrc : ∀ x ∈ OVERLOAD, k ≠ x ++ M_SOURCE := by
    intro x _
    have := hk.2.2 "source".toList (by decide +kernel) x
    exact this
  have hco : k ≠ A_CHILD_ORDER := by
    rintro rfl; exact hint (by decide +kernel)
  have hnm : A_NAME ≠ k := by
    rintro rfl; exact hint (by decide +kernel)
  have hown : get? k c.own = none := by
    rw [hc]
    unfold compNode
    simp only
    rw [get?_set, if_neg hco]
    have : ∀ (bs : List (Dict Str Val)) (st : Dict Str Val × List Str), get? k st.1 = none →
        get? k (bs.foldl (overloadBase p) st).1 = none := by
      intro bs
      induction bs with
      | nil => intro st h; exact h
      | cons m ms ih =>
        intro st h
        rw [List.foldl_cons]
        apply ih
        show get? k (OVERLOAD.foldl (overloadAttr p m) st.1) = none
        rw [(get?_overloadAttrs p m st.1 OVERLOAD (fun _ h => h) k).2.2 hov hsrc, h]
    apply this
    cases bases.head? with
    | none => rfl
    | some m => simp only [get?]; rw [if_neg hnm]
  unfold CompNode.attr
  have hb : c.bases = bases := by rw [hc]; rfl
  rw [hown, Option.none_or, hb]
  have hp := List.find?_some hn
  obtain ⟨v, hv⟩ := Option.isSome_iff_exists.1 hp
  have : bases.findSome? (get? k) = some v := by
    clear hc hb
    revert hn
    generalize bases = bs
    intro hn
    induction bs with
    | nil => cases hn
    | cons m ms ih =>
      rw [List.find?_cons] at hn
      rw [List.findSome?_cons]
      split at hn
      · rename_i hm
        cases hn
        rw [hv]
      · rename_i hm
        have : get? k m = none := by simpa using hm
        rw [this]
        exact ih hn
  rw [this, getAttr_of_get? hv]
  rfl

/-! ## C32 -/

/-- C32, the world left out (`C32_world_violation`): the child order of a composite node has every name listed by some layer
once, and keeps the order of the strongest layer. -/
theorem C32_child_order_partial (layers : List LayerNodes) (hl : ∀ l ∈ layers, Ok l) (p : Str) (hp : p ≠ "/".toList)
    (c : CompNode) (hc : get? p (compPre layers) = some c)
    (hn : ∀ n ∈ stack layers p, (listed n).Nodup) :
    ∃ co, c.attr "_child_order".toList = .list (co.map Val.str) ∧ co.Nodup ∧
      (∀ x, x ∈ co ↔ ∃ n ∈ stack layers p, x ∈ listed n) ∧
      (∀ n, (stack layers p).head? = some n → (listed n).Sublist co) := by
  rw [← childOrder_eq] at *
  rw [get?_compPre layers hl] at hc
  split at hc
  · cases hc
  rename_i hne
  generalize stack layers p = bases at hc hne hn
  have hc := (Option.some.inj hc).symm
  obtain ⟨w, hw⟩ : ∃ w, bases.getLast? = some w := ⟨_, List.getLast?_eq_some_getLast hne⟩
  have hwm : w ∈ bases := List.mem_of_getLast? hw
  obtain ⟨h1, h2, h3⟩ := childOrder_fold p hp
    (match bases.head? with | some n => [(A_NAME, getAttr n A_NAME)] | none => []) bases (childOrder w) (hn w hwm) hn
  refine ⟨_, ?_, h1, fun x => ?_, h3⟩
  · rw [hc]
    unfold CompNode.attr compNode
    simp only
    rw [show "_child_order".toList = A_CHILD_ORDER from rfl, get?_set, if_pos rfl, hw]
    rfl
  · rw [h2]
    constructor
    · rintro (h | h)
      · exact ⟨w, hwm, h⟩
      · exact h
    · exact .inr

/-- C32 fails for the world: its composite child order is that of the weakest layer alone. -/
theorem C32_world_violation :
    let n1 : Dict Str Val := [(A_NAME, .str ['/']), (A_CHILD_ORDER, .list [.str ['a']])]
    let n2 : Dict Str Val := [(A_NAME, .str ['/']), (A_CHILD_ORDER, .list [.str ['b']])]
    ∃ c, get? ['/'] (compPre [[(['/'], n1)], [(['/'], n2)]]) = some c ∧
      c.attr A_CHILD_ORDER = .list [.str ['b']] := ⟨_, rfl, rfl⟩

/-- Two layers, the stronger without a comment. -/
example :
    let n1 : Dict Str Val := [(A_NAME, .str ['a']), (A_CODE, .list [.str ['x']]), (A_COMMENT, .none),
      (A_CHILD_ORDER, .list [.str ['c']]), (A_SOURCE_LAYER, .str ['t'])]
    let n2 : Dict Str Val := [(A_NAME, .str ['a']), (A_CODE, .list [.str ['y']]), (A_COMMENT, .str ['k']),
      (A_CHILD_ORDER, .list [.str ['b'], .str ['c']]), (A_SOURCE_LAYER, .str ['u']), (['q'], .num 3)]
    ∃ c, get? "/a".toList (compPre [[("/a".toList, n1)], [("/b".toList, n1), ("/a".toList, n2)]]) = some c ∧
      c.attr A_CODE = .list [.str ['x']] ∧ c.attr A_COMMENT = .str ['k'] ∧
      c.attr (A_COMMENT ++ M_SOURCE) = .src (some ['u']) "/a".toList ∧ c.attr ['q'] = .num 3 ∧
      c.attr A_CHILD_ORDER = .list [.str ['b'], .str ['c']] := ⟨_, rfl, rfl, rfl, rfl, rfl, rfl⟩

/-! ## C54 -/

/-- C54: the test looks at the bases before the target layer (strong to weak); it reports a stronger
opinion exactly when one of them has an opinion and the first such value differs from the composite's. -/
theorem C54_stronger {L : Type} [DecidableEq L] (eq : Val → Val → Bool) (comp : Val) (bases : List (L × Val))
    (target : L) :
    hasStronger eq comp bases target = true ↔
      ∃ b, (bases.takeWhile (fun b => b.1 ≠ target)).find? (fun b => b.2.hasOpinion) = some b ∧
        eq comp b.2 = false := by
  have key : ∀ (bases : List (L × Val)) (v : Val),
      (∀ b, (bases.takeWhile (fun b => b.1 ≠ target)).find? (fun b => b.2.hasOpinion) = some b →
        strongerLoop target bases false v = (true, b.2)) ∧
      ((bases.takeWhile (fun b => b.1 ≠ target)).find? (fun b => b.2.hasOpinion) = none →
        (strongerLoop target bases false v).1 = false) := by
    intro bases
    induction bases with
    | nil => intro v; exact ⟨fun b h => (nomatch h), fun _ => rfl⟩
    | cons e bs ih =>
      intro v
      obtain ⟨l, x⟩ := e
      rw [strongerLoop]
      by_cases hl : l = target
      · rw [if_pos hl, List.takeWhile_cons_of_neg (by simp [hl])]
        exact ⟨fun b h => (nomatch h), fun _ => rfl⟩
      · rw [if_neg hl, List.takeWhile_cons_of_pos (by simp [hl])]
        by_cases ho : x.hasOpinion = true
        · rw [if_pos ho, List.find?_cons_of_pos (p := fun b : L × Val => b.2.hasOpinion) ho]
          exact ⟨fun b h => (by cases h; rfl), fun h => (nomatch h)⟩
        · rw [if_neg ho, List.find?_cons_of_neg (p := fun b : L × Val => b.2.hasOpinion) ho]
          exact ih x
  unfold hasStronger
  simp only
  cases hf : (bases.takeWhile (fun b => b.1 ≠ target)).find? (fun b => b.2.hasOpinion) with
  | none =>
    have := (key bases .none).2 hf
    rw [this]
    simp
  | some b =>
    have := (key bases .none).1 b hf
    rw [this]
    simp only [Option.some.injEq, exists_eq_left']
    cases eq comp b.2 <;> simp

/-- C54: as the value of a composite node is the one of its strongest base with an opinion (C30), the
test never reports a stronger opinion, whatever layer is asked about. -/
theorem C54_never_violation {L : Type} [DecidableEq L] (eq : Val → Val → Bool) (heq : ∀ v, eq v v = true)
    (layers : List LayerNodes) (hl : ∀ l ∈ layers, Ok l) (p : Str) (c : CompNode)
    (hc : get? p (compPre layers) = some c) (a : Str) (ha : a ∈ opinionAttrs) (layerOf : Dict Str Val → L)
    (target : L) :
    hasStronger eq (c.attr a) (c.bases.map (fun n => (layerOf n, getAttr n a))) target = false := by
  rw [← Bool.not_eq_true, C54_stronger]
  rintro ⟨b, hb, hne⟩
  have hbases : c.bases = stack layers p := by
    rw [get?_compPre layers hl] at hc
    split at hc
    · cases hc
    · have := (Option.some.inj hc).symm; rw [this]; rfl
  rw [hbases] at hb
  have hpre : ∀ (l : List (L × Val)) (q r : L × Val → Bool) (b : L × Val), (l.takeWhile q).find? r = some b →
      l.find? r = some b := by
    intro l q r b
    induction l with
    | nil => intro h; cases h
    | cons e l ih =>
      intro h
      by_cases hq : q e = true
      · rw [List.takeWhile_cons_of_pos hq] at h
        rw [List.find?_cons] at h ⊢
        split
        · rename_i hr; rw [hr] at h; exact h
        · rename_i hr; rw [hr] at h; exact ih h
      · rw [List.takeWhile_cons_of_neg hq] at h; cases h
  have h1 := hpre _ _ _ _ hb
  rw [List.find?_map] at h1
  have h2 : (stack layers p).find? ((fun b : L × Val => b.2.hasOpinion) ∘ fun n => (layerOf n, getAttr n a))
      = strongest (stack layers p) a := rfl
  rw [h2] at h1
  cases hs : strongest (stack layers p) a with
  | none => rw [hs] at h1; cases h1
  | some n =>
    rw [hs] at h1
    cases h1
    have := (C30_strongest_opinion layers hl p c hc a ha).1 n hs
    rw [this.1, heq] at hne
    cases hne

/-- A list of bases with a stronger opinion than that of layer 2, seen only with another composite value. -/
example : hasStronger (fun a b => a.truthy == b.truthy) (.str ['x']) [(0, .none), (1, .num 0), (2, .str ['x'])] 2 = true ∧
    hasStronger (fun a b => a.truthy == b.truthy) (.num 0) [(0, .none), (1, .num 0), (2, .str ['x'])] 2 = false := ⟨rfl, rfl⟩

end Nxt.Props
