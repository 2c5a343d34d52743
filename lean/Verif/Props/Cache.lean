import Verif.Spec.Cache
import Verif.Props.NodeData
import Verif.Lemmas.Py
/-!
# Property C113: nodes in the cache layer, saved and loaded again
-/
namespace Nxt.Props
open Dict NodeData Py Rt Layer Spec

namespace Cached
open Cache

/-- A spec node which is saved like the runtime node. -/
def flat (b : List Str) (n : RtNode) : Dict Str Val :=
  let d := n.own ++ n.inherited.filter (fun kv => !isUser b kv.1 && decide (kv.1 ∉ keys n.own))
  d ++ ([(A_NAME, Val.none), (A_PARENT, .none), (A_CHILD_ORDER, .list []), (A_PROXY, .none), (A_ENABLED, .none)].filter
    (fun kv => decide (kv.1 ∉ keys d)))

theorem get?_append {K V : Type} [DecidableEq K] (d e : Dict K V) (k : K) : get? k (d ++ e) = (get? k d).or (get? k e) := by
  induction d with
  | nil => rfl
  | cons x d ih =>
    obtain ⟨a, v⟩ := x
    show (if a = k then some v else get? k (d ++ e)) = (if a = k then some v else get? k d).or (get? k e)
    by_cases h : a = k
    · rw [if_pos h, if_pos h]; rfl
    · rw [if_neg h, if_neg h, ih]

theorem get?_filter {K V : Type} [DecidableEq K] (p : K → Bool) (d : Dict K V) (k : K) :
    get? k (d.filter (fun kv => p kv.1)) = if p k then get? k d else none := by
  induction d with
  | nil => simp [get?]
  | cons x d ih =>
    obtain ⟨a, v⟩ := x
    by_cases hp : p a
    · rw [List.filter_cons_of_pos (p := fun kv : K × V => p kv.1) hp]
      show (if a = k then some v else get? k (d.filter _)) = if p k then (if a = k then some v else get? k d) else none
      by_cases h : a = k
      · subst h; simp [hp]
      · rw [if_neg h, if_neg h, ih]
    · rw [List.filter_cons_of_neg (p := fun kv : K × V => p kv.1) hp, ih]
      show _ = if p k then (if a = k then some v else get? k d) else none
      by_cases h : a = k
      · subst h; simp [hp]
      · rw [if_neg h]

theorem ok_append {K V : Type} [DecidableEq K] {d e : Dict K V} (hd : Ok d) (he : Ok e) (h : ∀ k ∈ keys e, k ∉ keys d) :
    Ok (d ++ e) := by
  unfold Ok
  rw [keys_append, List.nodup_append]
  exact ⟨hd, he, fun a ha c hc e => h c hc (e ▸ ha)⟩

theorem ok_filter {K V : Type} [DecidableEq K] {d : Dict K V} (hd : Ok d) (p : K × V → Bool) : Ok (d.filter p) :=
  (List.Sublist.map Prod.fst List.filter_sublist).nodup hd

theorem mem_keys_filter {K V : Type} [DecidableEq K] {p : K → Bool} {d : Dict K V} {k : K}
    (h : k ∈ keys (d.filter (fun kv => p kv.1))) : p k = true := by
  obtain ⟨v, hv⟩ := mem_keys.1 h
  exact (List.mem_filter.1 hv).2

theorem ok_flat {b : List Str} {n : RtNode} (h1 : Ok n.own) (h2 : Ok n.inherited) : Ok (flat b n) := by
  have h3 : Ok (n.own ++ n.inherited.filter (fun kv => !isUser b kv.1 && decide (kv.1 ∉ keys n.own))) :=
    ok_append h1 (ok_filter h2 _) fun k hk => by
      have := mem_keys_filter (p := fun k => !isUser b k && decide (k ∉ keys n.own)) hk
      simp only [Bool.and_eq_true, decide_eq_true_eq] at this
      exact this.2
  exact ok_append h3 (ok_filter (by decide +kernel) _) fun k hk => of_decide_eq_true (mem_keys_filter (p := fun k => decide (k ∉ keys _)) hk)

/-- Lookups of names which are not user attributes. -/
theorem flat_internal {b : List Str} {n : RtNode} {k : Str} (hk : isUser b k = false) (hne : k ≠ A_CHILD_ORDER) :
    getAttr (flat b n) k = attr n k := by
  unfold getAttr flat attr
  simp only
  rw [get?_append, get?_append, get?_filter (fun k => !isUser b k && decide (k ∉ keys n.own)),
    get?_filter (fun k => decide (k ∉ keys (n.own ++ _)))]
  cases h : get? k n.own with
  | some v => rfl
  | none =>
    have hk' := get?_eq_none.1 h
    rw [hk]
    simp only [Bool.not_false, Bool.true_and, decide_eq_true_eq, hk', not_false_eq_true, if_true, Option.none_or]
    cases h2 : get? k n.inherited with
    | some v => rfl
    | none =>
      rw [Option.none_or]
      have : k ∉ keys (n.own ++ n.inherited.filter (fun kv => !isUser b kv.1 && decide (kv.1 ∉ keys n.own))) := by
        rw [← get?_eq_none, get?_append, h, Option.none_or,
          get?_filter (fun k => !isUser b k && decide (k ∉ keys n.own)), h2]
        split <;> rfl
      rw [if_pos this]
      by_cases e : k ∈ [A_NAME, A_PARENT, A_PROXY, A_ENABLED]
      · simp only [List.mem_cons, List.not_mem_nil, or_false] at e
        rcases e with rfl | rfl | rfl | rfl <;> rfl
      · simp only [List.mem_cons, List.not_mem_nil, or_false, not_or] at e
        have e1 : k ∉ keys NODE_CLASS := by
          show k ∉ [A_NAME, A_PARENT, A_CHILD_ORDER, A_PROXY, A_ENABLED]
          simp [e, hne]
        have e2 : k ∉ keys [(A_NAME, Val.none), (A_PARENT, .none), (A_CHILD_ORDER, .list []), (A_PROXY, .none), (A_ENABLED, .none)] := by
          show k ∉ [A_NAME, A_PARENT, A_CHILD_ORDER, A_PROXY, A_ENABLED]
          simp [e, hne]
        rw [get?_eq_none.2 e1, get?_eq_none.2 e2]; rfl

theorem flat_own {b : List Str} {n : RtNode} {k : Str} (hk : k ∈ keys n.own) : getAttr (flat b n) k = attr n k := by
  obtain ⟨v, hv⟩ := Option.isSome_iff_exists.1 (get?_isSome.2 hk)
  unfold getAttr flat attr
  simp only
  rw [get?_append, get?_append, hv]; rfl

theorem isUser_internal {b : List Str} {k : Str} (h : k ∈ ALL ++ [A_CACHED]) : isUser b k = false := by
  unfold isUser
  have : k ∈ b ++ TRACKED ++ UNTRACKED ++ [A_CACHED] := by
    have : k ∈ b ++ ((TRACKED ++ UNTRACKED) ++ [A_CACHED]) := List.mem_append_right _ h
    simpa [List.append_assoc] using this
  simp only [this, decide_true, Bool.not_true, Bool.false_and]

theorem isUser_meta {b : List Str} {k m : Str} (h : m ∈ METAS) : isUser b (k ++ m) = false := by
  unfold isUser
  have : METAS.any (endsWith (k ++ m)) = true := by
    refine List.any_eq_true.2 ⟨m, h, ?_⟩
    unfold endsWith
    rw [List.isSuffixOf_iff_suffix]
    exact List.suffix_append _ _
  rw [this, Bool.not_true, Bool.and_false]

theorem meta_ne {k m x : Str} (h : m ∈ METAS) (hx : x ∈ ALL) : k ++ m ≠ x := fun e => internal_not_meta hx h e.symm

theorem flat_child_order {b : List Str} {n : RtNode} :
    getAttr (flat b n) A_CHILD_ORDER = attr n A_CHILD_ORDER ∨
      (attr n A_CHILD_ORDER = .none ∧ getAttr (flat b n) A_CHILD_ORDER = .list []) := by
  have hu : isUser b A_CHILD_ORDER = false := isUser_internal (by decide +kernel)
  unfold getAttr flat attr
  simp only
  rw [get?_append, get?_append, get?_filter (fun k => !isUser b k && decide (k ∉ keys n.own)),
    get?_filter (fun k => decide (k ∉ keys (n.own ++ _)))]
  cases h : get? A_CHILD_ORDER n.own with
  | some v => exact .inl rfl
  | none =>
    have hk' := get?_eq_none.1 h
    rw [hu]
    simp only [Bool.not_false, Bool.true_and, decide_eq_true_eq, hk', not_false_eq_true, if_true, Option.none_or]
    cases h2 : get? A_CHILD_ORDER n.inherited with
    | some v => exact .inl rfl
    | none =>
      right
      refine ⟨rfl, ?_⟩
      rw [Option.none_or]
      have : A_CHILD_ORDER ∉ keys (n.own ++ n.inherited.filter (fun kv => !isUser b kv.1 && decide (kv.1 ∉ keys n.own))) := by
        rw [← get?_eq_none, get?_append, h, Option.none_or,
          get?_filter (fun k => !isUser b k && decide (k ∉ keys n.own)), h2]
        split <;> rfl
      rw [if_pos this]
      rfl

theorem foldl_skip {α β : Type} (f : β → α → β) (l : List α) (x : β) (h : ∀ a ∈ l, ∀ y, f y a = y) : l.foldl f x = x := by
  induction l with
  | nil => rfl
  | cons a l ih =>
    rw [List.foldl_cons, h a List.mem_cons_self]
    exact ih fun c hc => h c (List.mem_cons_of_mem _ hc)

theorem foldl_ext {α β : Type} {f g : β → α → β} (l : List α) (x : β) (h : ∀ a ∈ l, ∀ y, f y a = g y a) :
    l.foldl f x = l.foldl g x := by
  induction l generalizing x with
  | nil => rfl
  | cons a l ih =>
    rw [List.foldl_cons, List.foldl_cons, h a List.mem_cons_self]
    exact ih _ fun c hc => h c (List.mem_cons_of_mem _ hc)

theorem flat_subAttrs {b : List Str} {n : RtNode} {k : Str} (hk : k ∈ keys n.own) :
    NodeData.subAttrs (flat b n) k = Cache.subAttrs n k := by
  unfold NodeData.subAttrs Cache.subAttrs
  rw [flat_own hk, flat_internal (isUser_meta (by decide +kernel)) (meta_ne (m := M_COMMENT) (by decide +kernel) (by decide +kernel)),
    flat_internal (isUser_meta (by decide +kernel)) (meta_ne (m := M_TYPE) (by decide +kernel) (by decide +kernel))]

theorem flat_userAttrs {b : List Str} {n : RtNode} : NodeData.userAttrs b (flat b n) = Cache.userAttrs b n := by
  unfold NodeData.userAttrs Cache.userAttrs
  have h : ∃ rest, keys (flat b n) = keys n.own ++ rest ∧ ∀ k ∈ rest, isUser b k = false := by
    unfold flat
    simp only [keys_append, List.append_assoc]
    refine ⟨_, rfl, fun k hk => ?_⟩
    rcases List.mem_append.1 hk with hk | hk
    · have := mem_keys_filter (p := fun k => !isUser b k && decide (k ∉ keys n.own)) hk
      simp only [Bool.and_eq_true, Bool.not_eq_true'] at this
      exact this.1
    · obtain ⟨v, hv⟩ := mem_keys.1 hk
      have := mem_keys_of_mem (List.mem_filter.1 hv).1
      refine isUser_internal ?_
      have e : ∀ k ∈ [A_NAME, A_PARENT, A_CHILD_ORDER, A_PROXY, A_ENABLED], k ∈ ALL ++ [A_CACHED] := by decide +kernel
      exact e k this
  obtain ⟨rest, hr, hu⟩ := h
  rw [hr, List.foldl_append, foldl_skip _ rest _ (fun k hk y => by simp only [hu k hk]; rfl)]
  exact foldl_ext _ _ fun k hk y => by rw [flat_subAttrs hk]

theorem flat_savedAttrs {b : List Str} {n : RtNode} : NodeData.savedAttrs (flat b n) = Cache.savedAttrs n := by
  unfold NodeData.savedAttrs Cache.savedAttrs
  rw [flat_internal (isUser_internal (by decide +kernel)) (by decide +kernel)]
  rfl

/-- The node is saved like that spec node. -/
theorem flat_save {b : List Str} {n : RtNode} : NodeData.saveNode b (flat b n) = Cache.saveNode b n := by
  unfold NodeData.saveNode Cache.saveNode saveInternals
  rw [flat_userAttrs, flat_savedAttrs]
  simp only
  congr 1
  refine foldl_ext _ _ fun a ha y => ?_
  have hA : a ∈ ALL ++ [A_CACHED] := by
    have := savedAttrs_sub (flat b n) a (by rw [flat_savedAttrs]; exact ha)
    exact (by decide +kernel : ∀ a ∈ SAVED, a ∈ ALL ++ [A_CACHED]) a this
  by_cases e : a = A_CHILD_ORDER
  · subst e
    rcases flat_child_order (b := b) (n := n) with h | ⟨h1, h2⟩
    · rw [h]
    · rw [h1, h2]; rfl
  · rw [flat_internal (isUser_internal hA) e]

/-- What a spec node is made of. -/
theorem createSpecNode_congr {d d' : Dict Str Val} {layer : Option Str} {parent : Str} (h1 : nameData d = nameData d')
    (h2 : userData d = userData d') (h3 : orderData d = orderData d') (h4 : ∀ a ∈ ALL, internalValue d a = internalValue d' a) :
    createSpecNode d layer parent false = createSpecNode d' layer parent false := by
  have h5 : ∀ r, loadInternals d r = loadInternals d' r := by
    intro r
    unfold loadInternals
    exact foldl_ext _ _ fun a ha y => by rw [h4 a ha]
  unfold createSpecNode
  simp only [h1, h2, h3, h5]
  rfl

theorem load_construct {p : Str} {d : Dict Str Val} :
    createSpecNode (set "name".toList (.str (Path.nodeName p)) d) none (Path.parentPath p) false = constructNode none p d := by
  unfold constructNode
  have look : ∀ x, x ≠ A_SOURCE_LAYER → get? x (set A_SOURCE_LAYER (layerVal none) (set "name".toList (.str (Path.nodeName p)) d)) =
      get? x (set "name".toList (.str (Path.nodeName p)) d) := fun x hx => by rw [get?_set, if_neg hx]
  refine createSpecNode_congr ?_ ?_ ?_ ?_
  · unfold nameData; rw [look _ (by decide +kernel)]
  · unfold userData; rw [look _ (by decide +kernel)]
  · unfold orderData; rw [look _ (by decide +kernel)]
  · intro a ha
    unfold internalValue
    rw [look _ ((by decide +kernel : ∀ a ∈ ALL, saveKey a ≠ A_SOURCE_LAYER) a ha)]

theorem flat_keys {b : List Str} {n : RtNode} {k : Str} (hk : isUser b k = true) : k ∈ keys (flat b n) ↔ k ∈ keys n.own := by
  unfold flat
  simp only [keys_append, List.mem_append]
  constructor
  · rintro ((h | h) | h)
    · exact h
    · have := mem_keys_filter (p := fun k => !isUser b k && decide (k ∉ keys n.own)) h
      rw [hk] at this; cases this
    · obtain ⟨v, hv⟩ := mem_keys.1 h
      have := mem_keys_of_mem (List.mem_filter.1 hv).1
      have e : ∀ k ∈ [A_NAME, A_PARENT, A_CHILD_ORDER, A_PROXY, A_ENABLED], k ∈ ALL ++ [A_CACHED] := by decide +kernel
      rw [isUser_internal (e k this)] at hk; cases hk
  · exact fun h => .inl (.inl h)

/-- One node saved and loaded. -/
theorem load_node (b : List Str) {n : RtNode} (hn : Frameable n) {lines : List Str} (hc : attr n "_code".toList = .list (lines.map Val.str))
    (p : Str) : ∃ n', loadNode p (Cache.saveNode b n) = some n' ∧
      (∀ k, UserName b k → (k ∈ keys n' ↔ k ∈ keys n.own)) ∧
      (∀ k ∈ keys n.own, UserName b k → get? k n' = some (kept (attr n k))) ∧
      get? "_cached_code".toList n' = some (.str (join ['\n'] lines)) ∧
      get? "_code".toList n' = some (.list (lines.map Val.str)) ∧ get? "_name".toList n' = some (.str (Path.nodeName p)) ∧
      get? "_parent_path".toList n' = some (.str (Path.parentPath p)) := by
  obtain ⟨h1, h2, h3⟩ := hn
  obtain ⟨order, ho⟩ : ∃ order : List Str, getAttr (flat b n) A_CHILD_ORDER = .list (order.map Val.str) := by
    rcases h3 with ⟨h3, h4⟩ | ⟨order, h3⟩
    · refine ⟨[], ?_⟩
      have e1 : get? A_CHILD_ORDER n.own = none := get?_eq_none.2 h3
      have e2 : get? A_CHILD_ORDER n.inherited = none := get?_eq_none.2 h4
      unfold getAttr flat
      simp only
      rw [get?_append, get?_append, get?_filter (fun k => !isUser b k && decide (k ∉ keys n.own)),
        get?_filter (fun k => decide (k ∉ keys (n.own ++ _))), e1, e2]
      have : A_CHILD_ORDER ∉ keys (n.own ++ n.inherited.filter (fun kv => !isUser b kv.1 && decide (kv.1 ∉ keys n.own))) := by
        rw [← get?_eq_none, get?_append, e1, Option.none_or,
          get?_filter (fun k => !isUser b k && decide (k ∉ keys n.own)), e2]
        split <;> rfl
      rw [if_pos (decide_eq_true this)]
      split <;> rfl
    · rcases flat_child_order (b := b) (n := n) with h | ⟨-, h⟩
      · exact ⟨order, h.trans h3⟩
      · exact ⟨[], h⟩
  obtain ⟨m, q1, q2, q3, q4, q5, -, q7, q8⟩ := C25_round_trip b (flat b n) none p order (ok_flat h1 h2) ho
  have hcode : getAttr (flat b n) A_CODE = .list (lines.map Val.str) := by
    rw [flat_internal (isUser_internal (by decide +kernel)) (by decide +kernel)]; exact hc
  have hm' : get? A_CODE m = some (.list (lines.map Val.str)) := by
    rw [q5 A_CODE (by decide +kernel)]
    refine congrArg some ?_
    unfold keptInternal
    rw [hcode]
    cases lines with
    | nil => rw [if_neg (fun h => nomatch h.2)]; rfl
    | cons x l =>
      rw [if_pos]
      refine ⟨?_, rfl⟩
      unfold NodeData.savedAttrs
      split
      · split <;> decide +kernel
      · decide +kernel
  have hm := getAttr_of_get? hm'
  have huc : ∀ k, UserName b k → k ≠ A_CACHED := by
    rintro k hk rfl
    exact hk.2.1 (by decide +kernel)
  refine ⟨set A_CACHED (.str (join ['\n'] lines)) m, ?_, ?_, ?_, ?_, ?_, ?_, ?_⟩
  · unfold loadNode
    rw [load_construct, ← flat_save, q1, Option.bind_some, hm, names_map]; rfl
  · intro k hk
    rw [mem_keys_set, q3 k (isUser_of_userName hk), flat_keys (isUser_of_userName hk)]
    exact ⟨fun h => h.resolve_left (huc k hk), .inr⟩
  · intro k hk hu
    rw [get?_set, if_neg (huc k hu), (q4 k ((flat_keys (isUser_of_userName hu)).2 hk) (isUser_of_userName hu)).1, flat_own hk]
  · exact (get?_set _ _ _ _).trans (if_pos rfl)
  · exact (get?_set _ _ _ _).trans ((if_neg (by decide +kernel)).trans hm')
  · exact (get?_set _ _ _ _).trans ((if_neg (by decide +kernel)).trans q7)
  · exact (get?_set _ _ _ _).trans ((if_neg (by decide +kernel)).trans q8)

theorem load_nodes (b : List Str) : ∀ (nodes : Dict Str RtNode) (res : Dict Str (Dict Str Val)), Ok nodes →
    (∀ p n, (p, n) ∈ nodes → Frameable n ∧ ∃ lines : List Str, attr n "_code".toList = .list (lines.map Val.str)) →
    ∃ res', loadNodes (nodes.map (fun pn => (pn.1, .dict (Cache.saveNode b pn.2)))) res = some res' ∧
      (∀ p, p ∈ keys res' ↔ p ∈ keys res ∨ p ∈ keys nodes) ∧
      (∀ p, p ∉ keys nodes → get? p res' = get? p res) ∧
      ∀ p n, (p, n) ∈ nodes → ∃ n', loadNode p (Cache.saveNode b n) = some n' ∧ get? p res' = some n' := by
  intro nodes
  induction nodes with
  | nil => intro res _ _; exact ⟨res, rfl, by simp, fun _ _ => rfl, fun _ _ h => nomatch h⟩
  | cons x nodes ih =>
    obtain ⟨p, n⟩ := x
    intro res hok h
    obtain ⟨hf, lines, hl⟩ := h p n List.mem_cons_self
    obtain ⟨n', h1, -⟩ := load_node b hf hl p
    have hok' := List.nodup_cons.1 (show (p :: keys nodes).Nodup from hok)
    obtain ⟨res', r1, r2, r3, r4⟩ := ih (set p n' res) hok'.2 fun q m hm => h q m (List.mem_cons_of_mem _ hm)
    refine ⟨res', ?_, ?_, ?_, ?_⟩
    · show (loadNode p _).bind _ = _
      rw [h1]; exact r1
    · intro q
      rw [r2, mem_keys_set, keys_cons, List.mem_cons]
      constructor
      · rintro ((h | h) | h)
        · exact .inr (.inl h)
        · exact .inl h
        · exact .inr (.inr h)
      · rintro (h | h | h)
        · exact .inl (.inr h)
        · exact .inl (.inl h)
        · exact .inr h
    · intro q hq
      rw [keys_cons, List.mem_cons, not_or] at hq
      rw [r3 q hq.2, get?_set, if_neg hq.1]
    · intro q m hm
      rcases List.mem_cons.1 hm with e | hm
      · cases e
        exact ⟨n', h1, by rw [r3 p hok'.1, get?_set, if_pos rfl]⟩
      · exact r4 q m hm

/-- What holds of the nodes of a cache layer. -/
theorem ran_inv {b : List Str} {nodes : Dict Str RtNode} {codes : Dict Str Str} (h : Ran b nodes codes) :
    Ok nodes ∧ (∀ p, p ∈ keys codes ↔ p ∈ keys nodes) ∧
      ∀ p n, get? p nodes = some n → Frameable n ∧ ∃ s, get? p codes = some s ∧
        attr n "_code".toList = .list ((split '\n' s).map Val.str) := by
  induction h with
  | start => exact ⟨ok_nil, fun _ => Iff.rfl, fun _ _ h => nomatch h⟩
  | @add nodes nodes' codes p s n _ hf hs ha ih =>
    obtain ⟨i1, i2, i3⟩ := ih
    have hn' : nodes' = set p { n with own := set A_CODE (.list ((split '\n' s).map Val.str)) n.own } nodes := by
      unfold addNode at ha
      unfold attr at hs
      have e : (get? A_CACHED n.own).or (get? A_CACHED n.inherited) = some (.str s) := by
        cases e : (get? A_CACHED n.own).or (get? A_CACHED n.inherited) with
        | none => rw [show "_cached_code".toList = A_CACHED from rfl, e] at hs; cases hs
        | some v =>
          rw [show "_cached_code".toList = A_CACHED from rfl, e] at hs
          exact congrArg some hs
      rw [e] at ha
      exact (Option.some.inj ha).symm
    subst hn'
    refine ⟨ok_set i1 _ _, fun q => by rw [mem_keys_set, mem_keys_set, i2], fun q m hm => ?_⟩
    rw [get?_set] at hm
    by_cases e : q = p
    · rw [if_pos e] at hm
      subst e
      obtain rfl := Option.some.inj hm
      refine ⟨⟨ok_set hf.1 _ _, hf.2.1, ?_⟩, s, by rw [get?_set, if_pos rfl], ?_⟩
      · rcases hf.2.2 with ⟨h1, h2⟩ | ⟨o, h1⟩
        · refine .inl ⟨?_, h2⟩
          rw [mem_keys_set]
          rintro (h | h)
          · exact absurd h (by decide +kernel)
          · exact h1 h
        · refine .inr ⟨o, ?_⟩
          rw [← h1]
          unfold attr
          rw [get?_set, if_neg (by decide +kernel)]
      · unfold attr
        rw [get?_set, if_pos (show "_code".toList = A_CODE from rfl)]; rfl
    · rw [if_neg e] at hm
      obtain ⟨j1, s', j2, j3⟩ := i3 q m hm
      exact ⟨j1, s', by rw [get?_set, if_neg e]; exact j2, j3⟩
  | @assign nodes codes p k v n _ hg hu ih =>
    obtain ⟨i1, i2, i3⟩ := ih
    have hpm : p ∈ keys nodes := get?_isSome.1 (by rw [hg]; rfl)
    refine ⟨ok_set i1 _ _, fun q => ?_, fun q m hm => ?_⟩
    · rw [mem_keys_set, i2]
      exact ⟨.inr, fun h => h.elim (fun e => e ▸ hpm) id⟩
    · rw [get?_set] at hm
      by_cases e : q = p
      · rw [if_pos e] at hm
        subst e
        obtain rfl := Option.some.inj hm
        obtain ⟨j1, s', j2, j3⟩ := i3 q n hg
        have hne : ∀ x ∈ internalNames, x ≠ k := fun x hx e => hu.2.1 (e ▸ hx)
        have hsame : ∀ x ∈ internalNames, attr { n with own := set k v n.own } x = attr n x := by
          intro x hx
          unfold attr
          rw [get?_set, if_neg (hne x hx)]
        refine ⟨⟨ok_set j1.1 _ _, j1.2.1, ?_⟩, s', j2, ?_⟩
        · rcases j1.2.2 with ⟨h1, h2⟩ | ⟨o, h1⟩
          · refine .inl ⟨?_, h2⟩
            rw [mem_keys_set]
            rintro (h | h)
            · exact hne _ (by decide +kernel) h
            · exact h1 h
          · exact .inr ⟨o, (hsame _ (by decide +kernel)).trans h1⟩
        · exact (hsame _ (by decide +kernel)).trans j3
      · rw [if_neg e] at hm
        exact i3 q m hm

theorem join_intercalate (sep : Str) (l : List Str) : join sep l = List.intercalate sep l := by
  induction l with
  | nil => rfl
  | cons a l ih =>
    cases l with
    | nil => simp [join, List.intercalate]
    | cons b l =>
      rw [join, ih]
      simp [List.intercalate, List.intersperse]
      simp

end Cached
open Cached

/-- C113: after any execution the cache layer can be saved and loaded; it has a node for every node which was run, with the
code text it ran and the user attributes of its frame, whose values are kept if they are truthy and fit for JSON and are
`None` otherwise. -/
theorem C113_cache_partial (b : List Str) (version : Str) {nodes : Dict Str RtNode} {codes : Dict Str Str} (h : Ran b nodes codes) :
    ∃ nodes', Cache.load (Cache.saveData b version nodes) = some nodes' ∧ (∀ p, p ∈ keys nodes' ↔ p ∈ keys codes) ∧
      ∀ p s, get? p codes = some s → ∃ n n', get? p nodes = some n ∧ get? p nodes' = some n' ∧
        get? "_cached_code".toList n' = some (.str s) ∧
        (∃ lines : List Str, get? "_code".toList n' = some (.list (lines.map Val.str)) ∧ (∀ l ∈ lines, '\n' ∉ l) ∧
          List.intercalate ['\n'] lines = s) ∧
        get? "_name".toList n' = some (.str (Path.nodeName p)) ∧ get? "_parent_path".toList n' = some (.str (Path.parentPath p)) ∧
        (∀ k, UserName b k → (k ∈ keys n' ↔ k ∈ keys n.own)) ∧
        (∀ k v, UserName b k → get? k n.own = some v → v.truthy = true → v.serialisable = true → get? k n' = some v) ∧
        ∀ k v, UserName b k → get? k n.own = some v → (v.truthy && v.serialisable) = false → get? k n' = some .none := by
  obtain ⟨h1, h2, h3⟩ := ran_inv h
  obtain ⟨res, r1, r2, -, r4⟩ := load_nodes b nodes [] h1 fun p n hm => by
    obtain ⟨q1, s, -, q3⟩ := h3 p n (get?_of_mem h1 hm)
    exact ⟨q1, _, q3⟩
  refine ⟨res, r1, fun p => by rw [r2, h2]; simp, fun p s hp => ?_⟩
  have hk : p ∈ keys nodes := (h2 p).1 (get?_isSome.1 (by rw [hp]; rfl))
  obtain ⟨n, hn⟩ := Option.isSome_iff_exists.1 (get?_isSome.2 hk)
  obtain ⟨q1, s', q2, q3⟩ := h3 p n hn
  rw [hp] at q2
  obtain rfl := Option.some.inj q2
  obtain ⟨n', l1, l2⟩ := r4 p n (mem_of_get? hn)
  obtain ⟨n'', m1, m2, m3, m4, m5, m6, m7⟩ := load_node b q1 q3 p
  rw [l1] at m1
  obtain rfl := Option.some.inj m1
  rw [Py.join_split] at m4
  have hattr : ∀ k v, get? k n.own = some v → Cache.attr n k = v := by
    intro k v hv; unfold Cache.attr; rw [hv]; rfl
  refine ⟨n, n', hn, l2, m4, ⟨_, m5, fun l hl => not_mem_of_mem_split hl, ?_⟩, m6, m7, m2, fun k v hu hv ht hs => ?_, fun k v hu hv hf => ?_⟩
  · rw [← join_intercalate, join_split]
  · rw [m3 k (get?_isSome.1 (by rw [hv]; rfl)) hu, hattr k v hv, kept, ht, hs]; rfl
  · rw [m3 k (get?_isSome.1 (by rw [hv]; rfl)) hu, hattr k v hv, kept, hf]; rfl

/-- C113: the world is put into the cache layer after its code ran, without a cached code text; its code is replaced by two
empty lines. -/
theorem C113_world_violation (n : RtNode) (nodes : Dict Str RtNode) (h1 : "_cached_code".toList ∉ keys n.own)
    (h2 : "_cached_code".toList ∉ keys n.inherited) :
    ∃ nodes' n', Cache.addNode "/".toList n nodes = some nodes' ∧ get? "/".toList nodes' = some n' ∧
      Cache.attr n' "_code".toList = .list [.str [], .str []] ∧ ∀ k, k ≠ "_code".toList → Cache.attr n' k = Cache.attr n k := by
  have e1 : get? A_CACHED n.own = none := get?_eq_none.2 h1
  have e2 : get? A_CACHED n.inherited = none := get?_eq_none.2 h2
  refine ⟨set "/".toList { n with own := set A_CODE (.list ((split '\n' ['\n']).map Val.str)) n.own } nodes,
    { n with own := set A_CODE (.list ((split '\n' ['\n']).map Val.str)) n.own }, ?_, ?_, ?_, ?_⟩
  · unfold Cache.addNode
    rw [e1, e2]; rfl
  · rw [get?_set, if_pos rfl]
  · unfold Cache.attr
    rw [get?_set, if_pos (show "_code".toList = A_CODE from rfl)]; rfl
  · intro k hk
    unfold Cache.attr
    rw [get?_set, if_neg (show k ≠ A_CODE from hk)]

/-- C113: user attributes which a cached composite node only has from its bases are not saved. -/
theorem C113_inherited_violation (b : List Str) {n : RtNode} (hn : Frameable n) {lines : List Str}
    (hc : Cache.attr n "_code".toList = .list (lines.map Val.str)) (p : Str) {k : Str} (hu : UserName b k)
    (ho : k ∉ keys n.own) : ∃ n', Cache.loadNode p (Cache.saveNode b n) = some n' ∧ k ∉ keys n' := by
  obtain ⟨n', h1, h2, -⟩ := load_node b hn hc p
  exact ⟨n', h1, fun h => ho ((h2 k hu).1 h)⟩

/-! ### Concrete cases -/

/-- A frame of `/a` with two attributes. -/
def exFrame : RtNode :=
  ⟨[("_node_path".toList, .str "/a".toList), ("_cached_code".toList, .str "x = 1\ny = 2".toList), (['k'], .num 3), (['z'], .num 0)], []⟩

theorem exFrame_ok : Frameable exFrame := ⟨by decide +kernel, by decide +kernel, .inl ⟨by decide +kernel, by decide +kernel⟩⟩

theorem exFrame_ran : ∃ nodes, Ran [] nodes [("/a".toList, "x = 1\ny = 2".toList)] ∧
    (get? "/a".toList nodes).map (fun n => keys n.own) =
      some (["_node_path", "_cached_code", "k", "z", "_code", "new"].map String.toList) := by
  refine ⟨_, .assign (p := "/a".toList) (k := "new".toList) (v := .str "v".toList)
    (.add (p := "/a".toList) .start exFrame_ok (s := "x = 1\ny = 2".toList) rfl rfl) rfl ?_, by decide +kernel⟩
  refine ⟨by decide +kernel, by decide +kernel, ?_⟩
  intro m hm pre e
  have : ∀ m ∈ ["comment", "type", "source"].map String.toList, ¬ ("_".toList ++ m ++ "__nxt".toList) <:+ "new".toList := by
    decide +kernel
  exact this m hm ⟨pre, e.symm⟩

/-- Saved and loaded: `k` is kept, `z` (zero) becomes `None`. -/
example : ∃ nodes nodes' n', Cache.addNode "/a".toList exFrame [] = some nodes ∧
    Cache.load (Cache.saveData [] "1.17".toList nodes) = some nodes' ∧ get? "/a".toList nodes' = some n' ∧
    get? ['k'] n' = some (.num 3) ∧ get? ['z'] n' = some .none ∧
    get? "_cached_code".toList n' = some (.str "x = 1\ny = 2".toList) := by
  have hr : Ran [] _ [("/a".toList, "x = 1\ny = 2".toList)] :=
    .add (p := "/a".toList) .start exFrame_ok (s := "x = 1\ny = 2".toList) rfl (show Cache.addNode "/a".toList exFrame [] = some _ from rfl)
  obtain ⟨nodes', h1, -, h3⟩ := C113_cache_partial [] "1.17".toList hr
  obtain ⟨n, n', g1, g2, g3, -, -, -, -, g5, g6⟩ := h3 "/a".toList _ rfl
  obtain rfl := Option.some.inj g1
  have hu : ∀ k ∈ [['k'], ['z']], UserName [] k := by
    intro k hk
    refine ⟨(fun h => nomatch h), (by decide +kernel : ∀ k ∈ [['k'], ['z']], k ∉ internalNames) k hk, ?_⟩
    intro m hm pre e
    have : ∀ k ∈ [['k'], ['z']], ∀ m ∈ ["comment", "type", "source"].map String.toList,
        ¬ ("_".toList ++ m ++ "__nxt".toList) <:+ k := by decide +kernel
    exact this k hk m hm ⟨pre, e.symm⟩
  exact ⟨_, nodes', n', rfl, h1, g2, g5 ['k'] (.num 3) (hu _ (by simp)) rfl rfl rfl, g6 ['z'] (.num 0) (hu _ (by simp)) rfl rfl, g3⟩

/-- The world with code. -/
example : (Cache.addNode "/".toList ⟨[], [("_code".toList, .list [.str "import os".toList])]⟩ []).bind (fun nodes =>
    (get? "/".toList nodes).bind (fun n => names (Cache.attr n A_CODE))) = some [[], []] := by decide +kernel

end Nxt.Props
