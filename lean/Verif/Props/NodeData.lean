import Verif.Lemmas.NodeSave
/-!
# Property C25: saving and loading a node
-/
namespace Nxt.Props
open Dict Layer NodeData Spec

/-- Lookups in a freshly made node. -/
theorem createSpecNode_spec (b : List Str) (data : Dict Str Val) (layer : Option Str) (parent name : Str)
    (user : Dict Str Val) (order : List Str)
    (hname : nameData data = some name) (huser : userData data = some user)
    (hok : Ok user) (hu : ∀ a ∈ keys user, isUser b a = true)
    (hv : ∀ a v, (a, v) ∈ user → ∃ d, v = .dict d ∧ Ok d)
    (horder : orderData data = some order) :
    ∃ n, createSpecNode data layer parent false = some n ∧
      (∀ a d k, (a, .dict d) ∈ user → isKey k →
        get? (full a k) n = (get? k d).or (base (.src layer (Path.joinNodePath parent name)) [] a k)) ∧
      (∀ k, isUser b k = true → (k ∈ keys n ↔ k ∈ keys user)) ∧
      (∀ a ∈ TRACKED, get? a n = some (internalValue data a) ∧
        get? (a ++ M_SOURCE) n = some (.src layer (Path.joinNodePath parent name))) ∧
      get? A_CHILD_ORDER n = some (.list ((dedup order []).map Val.str)) ∧
      get? A_NAME n = some (.str name) ∧
      get? A_PARENT n = some (.str parent) ∧
      Ok n := by
  obtain ⟨r, hr, r1, r2⟩ := loadAttrs_spec (b := b) (.src layer (Path.joinNodePath parent name)) user hok hu hv []
  have hload : createSpecNode data layer parent false = some
      (TRACKED.foldl (fun at' a => set (a ++ M_SOURCE) (.src layer (Path.joinNodePath parent name)) at')
        (set A_PARENT (.str parent)
          (set A_SOURCE_LAYER (layerVal layer)
            (set A_CHILD_ORDER (.list ((dedup order []).map Val.str))
              (set A_PROXY (.bool false) (set A_NAME (.str name) (loadInternals data r))))))) := by
    unfold createSpecNode
    simp only [hname, huser, hr, horder, Option.bind_eq_bind, Option.bind_some]
    rfl
  have hsrc : M_SOURCE ∈ METAS := by decide +kernel
  -- lookups in the result
  have look : ∀ x, get? x (TRACKED.foldl
        (fun at' a => set (a ++ M_SOURCE) (.src layer (Path.joinNodePath parent name)) at')
        (set A_PARENT (.str parent)
          (set A_SOURCE_LAYER (layerVal layer)
            (set A_CHILD_ORDER (.list ((dedup order []).map Val.str))
              (set A_PROXY (.bool false) (set A_NAME (.str name) (loadInternals data r)))))))
      = if x ∈ TRACKED.map (· ++ M_SOURCE) then some (.src layer (Path.joinNodePath parent name))
        else if x = A_PARENT then some (.str parent)
        else if x = A_SOURCE_LAYER then some (layerVal layer)
        else if x = A_CHILD_ORDER then some (.list ((dedup order []).map Val.str))
        else if x = A_PROXY then some (.bool false)
        else if x = A_NAME then some (.str name)
        else if x ∈ ALL then some (internalValue data x) else get? x r := by
    intro x
    have hf := fun d => get?_foldl_set (fun _ : Str => Val.src layer (Path.joinNodePath parent name))
      (TRACKED.map (· ++ M_SOURCE)) d x
    simp only [List.foldl_map] at hf
    rw [hf]
    have hi := get?_foldl_set (internalValue data) ALL r x
    simp only [get?_set, loadInternals, hi]
    by_cases h1 : x ∈ TRACKED.map (· ++ M_SOURCE)
    · rw [if_pos h1, if_pos h1]
    · rw [if_neg h1, if_neg h1]
      by_cases h2 : x ∈ ALL <;> simp only [h2, if_true, if_false]
  have tsrc : ∀ x, x ∈ TRACKED.map (· ++ M_SOURCE) → ∃ a ∈ ALL, x = a ++ M_SOURCE := by
    intro x hx
    obtain ⟨a, ha, rfl⟩ := List.mem_map.1 hx
    exact ⟨a, List.mem_append_left _ ha, rfl⟩
  have lookAll : ∀ x ∈ ALL, x ∉ TRACKED.map (· ++ M_SOURCE) := by
    intro x hx hm
    obtain ⟨a, _, rfl⟩ := tsrc x hm
    exact internal_not_meta hx hsrc rfl
  have lookFull : ∀ a k, isUser b a = true → isKey k → get? (full a k) (TRACKED.foldl
        (fun at' a => set (a ++ M_SOURCE) (.src layer (Path.joinNodePath parent name)) at')
        (set A_PARENT (.str parent)
          (set A_SOURCE_LAYER (layerVal layer)
            (set A_CHILD_ORDER (.list ((dedup order []).map Val.str))
              (set A_PROXY (.bool false) (set A_NAME (.str name) (loadInternals data r)))))))
      = get? (full a k) r := by
    intro a k ha hk
    have hi : ∀ y ∈ ALL, full a k ≠ y := fun y hy => full_not_internal ha hk hy
    rw [look, if_neg, if_neg (hi _ (by decide +kernel)), if_neg (hi _ (by decide +kernel)),
      if_neg (hi _ (by decide +kernel)), if_neg (hi _ (by decide +kernel)),
      if_neg (hi _ (by decide +kernel)), if_neg (fun h => hi _ h rfl)]
    intro hm
    obtain ⟨y, hy, he⟩ := tsrc _ hm
    exact full_not_tracked_source ha hk hy he
  refine ⟨_, hload, ?_, ?_, ?_, ?_, ?_, ?_, ?_⟩
  · intro a d k hm hk
    rw [lookFull a k (hu a (mem_keys_of_mem hm)) hk, r1 a d k hm hk]
  · intro k hk
    have h := lookFull k K_VALUE hk isKey_value
    rw [full_value] at h
    rw [← get?_isSome, h]
    by_cases hm : k ∈ keys user
    · obtain ⟨v, hv'⟩ := mem_keys.1 hm
      obtain ⟨d, rfl, _⟩ := hv _ _ hv'
      have := r1 k d K_VALUE hv' isKey_value
      rw [full_value] at this
      rw [this]
      simp only [hm, iff_true]
      cases get? K_VALUE d <;> simp [base]
    · rw [r2]
      · simp [get?, hm]
      · intro a ha k' hk' he
        rw [← full_value k] at he
        exact hm ((full_inj hk (hu a ha) isKey_value hk' he).1 ▸ ha)
  · intro a ha
    have haA : a ∈ ALL := List.mem_append_left _ ha
    constructor
    · have hne : ∀ a ∈ TRACKED, a ≠ A_PARENT ∧ a ≠ A_SOURCE_LAYER ∧ a ≠ A_CHILD_ORDER ∧ a ≠ A_PROXY ∧
          a ≠ A_NAME := by decide +kernel
      obtain ⟨n1, n2, n3, n4, n5⟩ := hne a ha
      rw [look, if_neg (lookAll a haA), if_neg n1, if_neg n2, if_neg n3, if_neg n4, if_neg n5, if_pos haA]
    · rw [look, if_pos (List.mem_map.2 ⟨a, ha, rfl⟩)]
  · rw [look, if_neg (lookAll _ (by decide +kernel)), if_neg (by decide +kernel), if_neg (by decide +kernel),
      if_pos rfl]
  · rw [look, if_neg (lookAll _ (by decide +kernel)), if_neg (by decide +kernel), if_neg (by decide +kernel),
      if_neg (by decide +kernel), if_neg (by decide +kernel), if_pos rfl]
  · rw [look, if_neg (lookAll _ (by decide +kernel)), if_pos rfl]
  · apply ok_foldl_set
    have hr' : Ok r := ok_loadAttrs _ _ _ ok_nil _ hr
    exact ok_set (ok_set (ok_set (ok_set (ok_set (ok_foldl_set (fun a => a) _ _ _ hr') _ _) _ _) _ _) _ _) _ _

/-- The node data a layer file gives back, seen through the loader. -/
theorem savedData_spec (b : List Str) (layer : Option Str) (path : Str) (n : Dict Str Val) (order : List Str)
    (hco : getAttr n A_CHILD_ORDER = .list (order.map Val.str)) :
    let data := set A_SOURCE_LAYER (layerVal layer)
      (set "name".toList (.str (Path.nodeName path)) (saveNode b n))
    nameData data = some (Path.nodeName path) ∧
    userData data = some (sortByKey (userAttrs b n)) ∧
    orderData data = some (if A_CHILD_ORDER ∈ savedAttrs n then order else []) ∧
    (∀ a ∈ TRACKED, internalValue data a = keptInternal n a) := by
  obtain ⟨s1, s2, s3, s4⟩ := saveNode_spec b n
  have look : ∀ x, x ≠ A_SOURCE_LAYER → x ≠ "name".toList →
      get? x (set A_SOURCE_LAYER (layerVal layer)
        (set "name".toList (.str (Path.nodeName path)) (saveNode b n))) = get? x (saveNode b n) := by
    intro x h1 h2
    rw [get?_set, if_neg h1, get?_set, if_neg h2]
  have unsaved : ∀ a ∈ SAVED, a ∉ savedAttrs n → get? (saveKey a) (saveNode b n) = none := by
    intro a ha hm
    apply s4 _ (saveKey_ne_attrs a ha).symm
    intro a' ha' he
    exact hm (saveKey_inj_saved a ha a' (savedAttrs_sub n a' ha') he ▸ ha')
  have hco1 : saveKey A_CHILD_ORDER = "child_order".toList := by decide +kernel
  refine ⟨?_, ?_, ?_, ?_⟩
  · unfold nameData
    rw [get?_set, if_neg (by decide +kernel), get?_set, if_pos rfl]
  · unfold userData
    rw [look _ (by decide +kernel) (by decide +kernel), s2]
    by_cases h : (userAttrs b n).isEmpty = true
    · rw [if_pos h]
      rw [List.isEmpty_iff] at h
      rw [h]; simp [sortByKey]
    · rw [if_neg h]
  · unfold orderData
    rw [look _ (by decide +kernel) (by decide +kernel), ← hco1]
    by_cases hm : A_CHILD_ORDER ∈ savedAttrs n
    · rw [s3 _ hm, hco, if_pos hm]
      cases order with
      | nil => rfl
      | cons o os =>
        have : (Val.list ((o :: os).map Val.str)).hasOpinion = true := rfl
        rw [if_pos this]
        exact names_map _
    · rw [unsaved _ (by decide +kernel) hm, if_neg hm]
  · intro a ha
    have haS : a ∈ SAVED := by revert a; decide +kernel
    have hk1 : ∀ a ∈ SAVED, saveKey a ≠ A_SOURCE_LAYER ∧ saveKey a ≠ "name".toList := by decide +kernel
    unfold internalValue keptInternal
    rw [look _ (hk1 a haS).1 (hk1 a haS).2]
    have hen : internalDefault A_ENABLED = .none := by
      unfold internalDefault; rw [if_neg (by decide +kernel), if_neg (by decide +kernel)]
    have hnone : Val.none.hasOpinion = false := rfl
    by_cases hm : a ∈ savedAttrs n
    · rw [s3 a hm]
      by_cases ho : (getAttr n a).hasOpinion = true
      · simp [hm, ho]
      · by_cases he : a = A_ENABLED
        · subst he; simp [ho, hen]
        · simp [ho, he, hnone]
    · rw [unsaved a haS hm]
      by_cases he : a = A_ENABLED
      · subst he; simp [hm, hen]
      · simp [hm, he, hnone]

/-- C25: a node saved and loaded again (at the same path, in a layer with any real path) has the same
user attributes with the same comments, types and values — values which are falsy or not JSON
serialisable become `None` — and the same internal attributes; the child order loses its duplicates.
Only comment and code of the world node are kept. -/
theorem C25_round_trip (b : List Str) (n : Dict Str Val) (layer : Option Str) (path : Str) (order : List Str)
    (hn : Ok n) (hco : getAttr n A_CHILD_ORDER = .list (order.map Val.str)) :
    ∃ n', constructNode layer path (saveNode b n) = some n' ∧ Ok n' ∧
      (∀ k, isUser b k = true → (k ∈ keys n' ↔ k ∈ keys n)) ∧
      (∀ k ∈ keys n, isUser b k = true →
        get? k n' = some (kept (getAttr n k)) ∧
        getAttr n' (k ++ M_COMMENT) = keptMeta (getAttr n (k ++ M_COMMENT)) ∧
        getAttr n' (k ++ M_TYPE) = keptMeta (getAttr n (k ++ M_TYPE)) ∧
        get? (k ++ M_SOURCE) n'
          = some (.src layer (Path.joinNodePath (Path.parentPath path) (Path.nodeName path)))) ∧
      (∀ a ∈ TRACKED, get? a n' = some (keptInternal n a)) ∧
      get? A_CHILD_ORDER n'
        = some (.list ((dedup (if A_CHILD_ORDER ∈ savedAttrs n then order else []) []).map Val.str)) ∧
      get? A_NAME n' = some (.str (Path.nodeName path)) ∧
      get? A_PARENT n' = some (.str (Path.parentPath path)) := by
  obtain ⟨d1, d2, d3, d4⟩ := savedData_spec b layer path n order hco
  have hok : Ok (sortByKey (userAttrs b n)) := ok_sortByKey (ok_userAttrs b n hn)
  have hmem : ∀ a v, (a, v) ∈ sortByKey (userAttrs b n) ↔
      a ∈ keys n ∧ isUser b a = true ∧ v = .dict (subAttrs n a) := by
    intro a v
    rw [(sortByKey_perm _).mem_iff, userAttrs_eq b n hn, List.mem_map]
    constructor
    · rintro ⟨k, hk, he⟩
      cases he
      rw [List.mem_filter] at hk
      exact ⟨hk.1, hk.2, rfl⟩
    · rintro ⟨h1, h2, rfl⟩
      exact ⟨a, List.mem_filter.2 ⟨h1, h2⟩, rfl⟩
  have hkeys : ∀ a, a ∈ keys (sortByKey (userAttrs b n)) ↔ a ∈ keys n ∧ isUser b a = true := by
    intro a
    rw [mem_keys]
    constructor
    · rintro ⟨v, hv⟩; exact ⟨((hmem a v).1 hv).1, ((hmem a v).1 hv).2.1⟩
    · rintro ⟨h1, h2⟩; exact ⟨_, (hmem a _).2 ⟨h1, h2, rfl⟩⟩
  obtain ⟨n', hc, c1, c2, c3, c4, c5, c6, c7⟩ := createSpecNode_spec b _ layer (Path.parentPath path) _ _ _ d1 d2 hok
    (fun a ha => ((hkeys a).1 ha).2)
    (fun a v h => ⟨subAttrs n a, ((hmem a v).1 h).2.2, ok_subAttrs n a⟩) d3
  refine ⟨n', hc, c7, ?_, ?_, ?_, c4, c5, c6⟩
  · intro k hk
    rw [c2 k hk, hkeys]
    simp [hk]
  · intro k hk hu
    have hm := (hmem k _).2 ⟨hk, hu, rfl⟩
    obtain ⟨g1, g2, g3, g4⟩ := get?_subAttrs n k
    have hcls : ∀ m ∈ METAS, get? (k ++ m) NODE_CLASS = none := by
      intro m hmm
      rw [get?_eq_none]
      intro hx
      have : ∀ x ∈ keys NODE_CLASS, x ∈ ALL := by decide +kernel
      exact internal_not_meta (this _ hx) hmm rfl
    refine ⟨?_, ?_, ?_, ?_⟩
    · have := c1 k _ K_VALUE hm isKey_value
      rw [full_value, g3] at this
      rw [this]
      unfold kept base
      split <;> simp
    · have := c1 k _ K_COMMENT hm isKey_comment
      rw [full_comment, g1] at this
      unfold getAttr keptMeta
      unfold getAttr at this
      rw [this, hcls _ (by decide +kernel)]
      have e : base (.src layer (Path.joinNodePath (Path.parentPath path) (Path.nodeName path))) [] k K_COMMENT
        = none := by
        unfold base; rw [if_neg (by decide +kernel), if_neg (by decide +kernel)]; rfl
      rw [e]
      split <;> simp
    · have := c1 k _ K_TYPE hm isKey_type
      rw [full_type, g2] at this
      unfold getAttr keptMeta
      unfold getAttr at this
      rw [this, hcls _ (by decide +kernel)]
      have e : base (.src layer (Path.joinNodePath (Path.parentPath path) (Path.nodeName path))) [] k K_TYPE
        = none := by
        unfold base; rw [if_neg (by decide +kernel), if_neg (by decide +kernel)]; rfl
      rw [e]
      split <;> simp
    · have := c1 k _ K_SOURCE hm isKey_source
      rw [full_source, g4] at this
      rw [this]
      unfold base
      rw [if_neg (by decide +kernel), if_pos rfl]; rfl
  · intro a ha
    rw [(c3 a ha).1, d4 a ha]

/-- C25: a value which is falsy or not serialisable is lost: `0`, `False`, `''`, `[]` come back as
`None`. -/
theorem C25_falsy_value_violation :
    let n : Dict Str Val := [("x".toList, .str []), (A_NAME, .str ['a']), (A_CHILD_ORDER, .list [])]
    ∃ n', constructNode none "/a".toList (saveNode [] n) = some n' ∧
      get? "x".toList n = some (.str []) ∧ get? "x".toList n' = some .none := by
  intro n
  obtain ⟨n', h1, _, _, h4, _⟩ := C25_round_trip [] n none "/a".toList [] (by decide +kernel) rfl
  refine ⟨n', h1, rfl, ?_⟩
  have := (h4 "x".toList (by decide +kernel) (by decide +kernel)).1
  exact this

/-- Saving depends only on lookups. -/
theorem saveNode_congr (b : List Str) (n n' : Dict Str Val) (hn : Ok n) (hok : Ok n')
    (h1 : ∀ k, isUser b k = true → (k ∈ keys n' ↔ k ∈ keys n))
    (hsub : ∀ k ∈ keys n, isUser b k = true → subAttrs n' k = subAttrs n k)
    (hsaved : savedAttrs n' = savedAttrs n)
    (hint : ∀ a ∈ savedAttrs n, (getAttr n' a).hasOpinion = (getAttr n a).hasOpinion ∧
      ((getAttr n a).hasOpinion = true → getAttr n' a = getAttr n a)) :
    saveNode b n' = saveNode b n := by
  have hperm : (userAttrs b n').Perm (userAttrs b n) := by
    rw [userAttrs_eq b n' hok, userAttrs_eq b n hn]
    have hp : ((keys n').filter (isUser b)).Perm ((keys n).filter (isUser b)) := by
      rw [List.perm_ext_iff_of_nodup (nodup_filter _ hok) (nodup_filter _ hn)]
      intro a
      rw [List.mem_filter, List.mem_filter]
      constructor
      · rintro ⟨p, q⟩; exact ⟨(h1 a q).1 p, q⟩
      · rintro ⟨p, q⟩; exact ⟨(h1 a q).2 p, q⟩
    refine (hp.map _).trans ?_
    apply List.Perm.of_eq
    apply List.map_congr_left
    intro k hk
    rw [List.mem_filter] at hk
    rw [hsub k hk.1 hk.2]
  have huser : userPart b n' = userPart b n := by
    have hs : sortByKey (userAttrs b n') = sortByKey (userAttrs b n) :=
      sortByKey_congr (ok_userAttrs b n' hok) hperm
    have he : (userAttrs b n').isEmpty = (userAttrs b n).isEmpty := by
      have := hperm.length_eq
      cases h1 : userAttrs b n' <;> cases h2 : userAttrs b n <;> simp_all
    unfold userPart
    rw [hs, he]
  have hfin : ∀ (as : List Str) (d : Dict Str Val), (∀ a ∈ as, a ∈ savedAttrs n) →
      saveInternals n' as d = saveInternals n as d := by
    intro as
    induction as with
    | nil => intros; rfl
    | cons a as ih =>
      intro d hsubs
      have hstep : saveInternals n' (a :: as) d = saveInternals n' as
          (if (getAttr n' a).hasOpinion then set (saveKey a) (getAttr n' a) d else d) := rfl
      have hstep' : saveInternals n (a :: as) d = saveInternals n as
          (if (getAttr n a).hasOpinion then set (saveKey a) (getAttr n a) d else d) := rfl
      rw [hstep, hstep']
      obtain ⟨i1, i2⟩ := hint a (hsubs a (by simp))
      rw [ih _ (fun x hx => hsubs x (by simp [hx])), i1]
      congr 1
      split
      · rename_i h; rw [i2 h]
      · rfl
  show orderNodeDict (saveInternals n' (savedAttrs n') (userPart b n'))
    = orderNodeDict (saveInternals n (savedAttrs n) (userPart b n))
  rw [hsaved, huser, hfin _ _ (fun _ h => h)]

/-- C25: opening a saved node and saving it again gives the very same data, when its child order has no
duplicates. -/
theorem C25_resave_stable (b : List Str) (n n' : Dict Str Val) (layer : Option Str) (path : Str)
    (order : List Str) (hn : Ok n) (hname : getAttr n A_NAME = .str (Path.nodeName path))
    (hco : getAttr n A_CHILD_ORDER = .list (order.map Val.str)) (hnd : A_CHILD_ORDER ∈ savedAttrs n → order.Nodup)
    (hload : constructNode layer path (saveNode b n) = some n') :
    saveNode b n' = saveNode b n := by
  obtain ⟨m, hm, hok, h1, h2, h3, h4, h5, h6⟩ := C25_round_trip b n layer path order hn hco
  rw [hload] at hm
  cases hm
  have gA : ∀ a v, get? a n' = some v → getAttr n' a = v := by
    intro a v h; unfold getAttr; rw [h]; rfl
  have hsaved : savedAttrs n' = savedAttrs n := by
    unfold savedAttrs; rw [gA _ _ h5, hname]
  -- user attributes
  have hsub : ∀ k ∈ keys n, isUser b k = true → subAttrs n' k = subAttrs n k := by
    intro k hk hu
    obtain ⟨g1, g2, g3, _⟩ := h2 k hk hu
    rw [subAttrs_eq, subAttrs_eq, gA _ _ g1, g2, g3]
    have e1 : ∀ v : Val, (keptMeta v).truthy = v.truthy := by
      intro v; unfold keptMeta; split
      · rfl
      · rename_i h; simp only [Bool.not_eq_true] at h; rw [h]; rfl
    have e2 : ∀ v : Val, v.truthy = true → keptMeta v = v := by
      intro v h; unfold keptMeta; rw [if_pos h]
    have e3 : ∀ v : Val, ((kept v).truthy && (kept v).serialisable) = (v.truthy && v.serialisable) := by
      intro v; unfold kept; split
      · rfl
      · rename_i h; simp only [Bool.not_eq_true] at h; rw [h]; rfl
    have e4 : ∀ v : Val, (v.truthy && v.serialisable) = true → kept v = v := by
      intro v h; unfold kept; rw [if_pos h]
    rw [e1, e1, e3]
    congr 1
    · congr 1
      · split
        · rename_i h; rw [e2 _ h]
        · rfl
      · split
        · rename_i h; rw [e2 _ h]
        · rfl
    · split
      · rename_i h; rw [e4 _ h]
      · rfl
  have hint : ∀ a ∈ savedAttrs n, (getAttr n' a).hasOpinion = (getAttr n a).hasOpinion ∧
      ((getAttr n a).hasOpinion = true → getAttr n' a = getAttr n a) := by
    intro a ha
    by_cases hc : a = A_CHILD_ORDER
    · subst hc
      rw [if_pos ha] at h4
      have hd := (dedup_spec order [] List.nodup_nil).2.2 (hnd ha) (by simp)
      rw [hd, List.nil_append] at h4
      rw [gA _ _ h4, hco]
      exact ⟨rfl, fun _ => rfl⟩
    · have ht : a ∈ TRACKED := by
        have : ∀ a ∈ SAVED, a ≠ A_CHILD_ORDER → a ∈ TRACKED := by decide +kernel
        exact this a (savedAttrs_sub n a ha) hc
      rw [gA _ _ (h3 a ht)]
      unfold keptInternal
      by_cases ho : (getAttr n a).hasOpinion = true
      · rw [if_pos ⟨ha, ho⟩]; exact ⟨rfl, fun _ => rfl⟩
      · rw [if_neg (fun h => ho h.2)]
        refine ⟨?_, fun h => absurd h ho⟩
        simp only [Bool.not_eq_true] at ho
        rw [ho]
        have hA : ∀ a ∈ TRACKED, a ≠ A_PARENT := by decide +kernel
        unfold internalDefault
        rw [if_neg (hA a ht)]
        split <;> rfl
  exact saveNode_congr b n n' hn hok h1 hsub hsaved hint

theorem isUser_of_userName {b : List Str} {k : Str} (h : UserName b k) : isUser b k = true := by
  obtain ⟨h1, h2, h3⟩ := h
  unfold isUser
  have e : TRACKED ++ UNTRACKED ++ [A_CACHED] = internalNames := by decide +kernel
  rw [List.append_assoc, List.append_assoc, ← List.append_assoc TRACKED, e]
  rw [Bool.and_eq_true, Bool.not_eq_true', Bool.not_eq_true']
  refine ⟨by simp [h1, h2], ?_⟩
  rw [← Bool.not_eq_true, List.any_eq_true]
  rintro ⟨m, hm, he⟩
  obtain ⟨pre, hp⟩ : ∃ pre, k = pre ++ m := by
    unfold Py.endsWith at he
    obtain ⟨pre, hp⟩ := List.isSuffixOf_iff_suffix.1 he
    exact ⟨pre, hp.symm⟩
  have hM : METAS = (["comment", "type", "source"].map String.toList).map
      (fun m => "_".toList ++ m ++ "__nxt".toList) := by decide +kernel
  rw [hM] at hm
  obtain ⟨m', hm', rfl⟩ := List.mem_map.1 hm
  exact h3 m' hm' pre hp

/-- C25 in plain words: every user attribute comes back, and one with a truthy, serialisable value, a
truthy comment and a truthy type has them back; every internal opinion of a node which is not the world
comes back, and so does a child order without duplicates. -/
theorem C25_same_node (b : List Str) (n : Dict Str Val) (layer : Option Str) (path : Str) (order : List Str)
    (hn : Ok n) (hco : getAttr n "_child_order".toList = .list (order.map Val.str)) (hnd : order.Nodup)
    (hw : ∃ s, getAttr n "_name".toList = .str s ∧ s ≠ "/".toList) :
    ∃ n', constructNode layer path (saveNode b n) = some n' ∧
      (∀ k, UserName b k → (k ∈ keys n' ↔ k ∈ keys n)) ∧
      (∀ k v, UserName b k → get? k n = some v → v.truthy = true → v.serialisable = true → get? k n' = some v) ∧
      (∀ k v, UserName b k → k ∈ keys n → (getAttr n (k ++ "_comment__nxt".toList)) = v → v.truthy = true →
        getAttr n' (k ++ "_comment__nxt".toList) = v) ∧
      (∀ k v, UserName b k → k ∈ keys n → (getAttr n (k ++ "_type__nxt".toList)) = v → v.truthy = true →
        getAttr n' (k ++ "_type__nxt".toList) = v) ∧
      (∀ a ∈ opinionAttrs, (getAttr n a).hasOpinion = true → getAttr n' a = getAttr n a) ∧
      getAttr n' "_child_order".toList = .list (order.map Val.str) := by
  obtain ⟨n', h1, h2, h3, h4, h5, h6, -⟩ := C25_round_trip b n layer path order hn hco
  have hs : savedAttrs n = SAVED := by
    obtain ⟨s, hs, hne⟩ := hw
    unfold savedAttrs
    rw [show A_NAME = "_name".toList from rfl, hs]
    simp only
    rw [if_neg (by simpa [Path.WORLD] using hne)]
  refine ⟨n', h1, fun k hk => h3 k (isUser_of_userName hk), ?_, ?_, ?_, ?_, ?_⟩
  · intro k v hk hv ht hse
    have := (h4 k (mem_keys.2 ⟨v, mem_of_get? hv⟩) (isUser_of_userName hk)).1
    rw [this, getAttr_of_get? hv, kept, ht, hse]; rfl
  · intro k v hk hm hv ht
    have := (h4 k hm (isUser_of_userName hk)).2.1
    rw [show M_COMMENT = "_comment__nxt".toList from rfl, hv] at this
    rw [this, keptMeta, if_pos ht]
  · intro k v hk hm hv ht
    have := (h4 k hm (isUser_of_userName hk)).2.2.1
    rw [show M_TYPE = "_type__nxt".toList from rfl, hv] at this
    rw [this, keptMeta, if_pos ht]
  · intro a ha ho
    have hT : a ∈ TRACKED := by
      have : opinionAttrs = TRACKED := by decide +kernel
      rwa [this] at ha
    have hS : ∀ a ∈ TRACKED, a ∈ SAVED := by decide +kernel
    rw [getAttr_of_get? (h5 a hT), keptInternal, hs, if_pos ⟨hS a hT, ho⟩]
  · rw [show ("_child_order".toList : Str) = A_CHILD_ORDER from rfl, getAttr_of_get? h6, hs,
      if_pos (by decide +kernel)]
    rw [(dedup_spec order [] List.nodup_nil).2.2 hnd (by simp)]; rfl

/-- C25: the world node loses every internal attribute but comment and code. -/
theorem C25_world_loses_internals (b : List Str) (n : Dict Str Val) (layer : Option Str) (order : List Str)
    (hn : Ok n) (hname : getAttr n A_NAME = .str Path.WORLD)
    (hco : getAttr n A_CHILD_ORDER = .list (order.map Val.str)) :
    ∃ n', constructNode layer Path.WORLD (saveNode b n) = some n' ∧
      get? A_COMMENT n' = some (if (getAttr n A_COMMENT).hasOpinion then getAttr n A_COMMENT else .none) ∧
      get? A_START n' = some .none ∧ get? A_ENABLED n' = some .none ∧
      get? A_CHILD_ORDER n' = some (.list []) := by
  obtain ⟨n', h1, _, _, _, h5, h6, _⟩ := C25_round_trip b n layer Path.WORLD order hn hco
  have hs : savedAttrs n = WORLD_SAVED := by unfold savedAttrs; rw [hname]; rfl
  have hd : ∀ a ∈ TRACKED, a ≠ A_CODE → internalDefault a = .none := by
    intro a ha hc
    have : ∀ a ∈ TRACKED, a ≠ A_PARENT := by decide +kernel
    unfold internalDefault; rw [if_neg hc, if_neg (this a ha)]
  refine ⟨n', h1, ?_, ?_, ?_, ?_⟩
  · rw [h5 _ (by decide +kernel)]
    unfold keptInternal
    rw [hs, hd A_COMMENT (by decide +kernel) (by decide +kernel)]
    have : A_COMMENT ∈ WORLD_SAVED := by decide +kernel
    simp [this]
  · rw [h5 _ (by decide +kernel)]
    unfold keptInternal
    rw [hs, if_neg (fun h => absurd h.1 (by decide +kernel)), hd A_START (by decide +kernel) (by decide +kernel)]
  · rw [h5 _ (by decide +kernel)]
    unfold keptInternal
    rw [hs, if_neg (fun h => absurd h.1 (by decide +kernel)), hd A_ENABLED (by decide +kernel) (by decide +kernel)]
  · rw [h6, hs, if_neg (by decide +kernel)]
    rfl

/-- A node with an attribute with comment and value, code and a child order meets the hypotheses. -/
example : let n : Dict Str Val := [("x".toList, .str "1".toList), ("x".toList ++ M_COMMENT, .str ['c']),
      (A_CODE, .list [.str ['p']]), (A_NAME, .str ['a']), (A_CHILD_ORDER, .list (["b".toList].map Val.str))]
    Ok n ∧ getAttr n A_NAME = .str (Path.nodeName "/a".toList) ∧ ("x".toList ∉ internalNames) ∧
    keys (saveNode [] n) = ["child_order", "enabled", "attrs", "code"].map String.toList := by
  intro n
  refine ⟨by decide +kernel, rfl, by decide +kernel, by decide +kernel⟩

/-- C25: a node whose own table says nothing about being enabled, and which is not the world, is saved as
enabled (the class of all nodes says so); a child order it does not say is not written. -/
theorem C25_unsaid (b : List Str) (n : Dict Str Val) (hw : get? "_name".toList n ≠ some (.str ['/'])) :
    (get? "_enabled".toList n = none → get? "enabled".toList (saveNode b n) = some (.bool true)) ∧
    (get? "_child_order".toList n = none → get? "child_order".toList (saveNode b n) = none) := by
  have hs : savedAttrs n = SAVED := by
    unfold savedAttrs
    split
    · rename_i s hs
      refine if_neg fun e => ?_
      subst e
      unfold getAttr at hs
      cases hg : get? A_NAME n with
      | none =>
        rw [hg, show get? A_NAME NODE_CLASS = some (.str "node".toList) from rfl] at hs
        exact absurd (Val.str.inj hs) (by decide +kernel)
      | some v =>
        rw [hg] at hs
        exact hw (hg.trans (congrArg some hs))
    · rfl
  have hg := (saveNode_spec b n).2.2.1
  rw [hs] at hg
  refine ⟨fun h => ?_, fun h => ?_⟩
  · have e : getAttr n A_ENABLED = .bool true := by
      unfold getAttr
      rw [show get? A_ENABLED n = none from h]
      rfl
    have := hg A_ENABLED (by decide +kernel)
    rw [e] at this
    exact this
  · have e : getAttr n A_CHILD_ORDER = .list [] := by
      unfold getAttr
      rw [show get? A_CHILD_ORDER n = none from h]
      rfl
    have := hg A_CHILD_ORDER (by decide +kernel)
    rw [e] at this
    exact this

example : let n : Dict Str Val := [("_name".toList, .str ['a']), ("x".toList, .str ['1'])]
    get? "_name".toList n ≠ some (.str ['/']) ∧ get? "_enabled".toList n = none ∧
    get? "enabled".toList (saveNode [] n) = some (.bool true) := by
  intro n
  have h : get? "_name".toList n ≠ some (.str ['/']) := fun e =>
    absurd (Val.str.inj (Option.some.inj ((show get? "_name".toList n = some (.str ['a']) from rfl).symm.trans e)))
      (by decide +kernel)
  exact ⟨h, rfl, (C25_unsaid [] n h).1 rfl⟩

end Nxt.Props
