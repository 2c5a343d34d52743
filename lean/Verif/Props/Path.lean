import Verif.Lemmas.Path
/-!
# Properties C08–C14: node paths

A namespace is a list of legal names (`Spec.Names`); `Spec.render` is the path it stands for.
`C08_wellformed` says which texts are renderings.
-/
namespace Nxt.Props
open Py Path Spec

/-! ## C08 -/

/-- Which texts are well formed node paths, said on the text alone: the world path, or a text which
starts with one separator, ends in none, has no doubled separator and no attribute separator. -/
theorem C08_wellformed (p : Str) :
    (∃ ns, Names ns ∧ p = render ns) ↔
      p = ['/'] ∨ (p.head? = some '/' ∧ p.getLast? ≠ some '/' ∧ '.' ∉ p ∧
        ∀ a b, p ≠ a ++ ['/', '/'] ++ b) := by
  constructor
  · rintro ⟨ns, hns, rfl⟩
    cases ns with
    | nil => exact .inl rfl
    | cons n ns =>
      refine .inr ⟨by simp [render, slashed], ?_, dot_not_mem_render hns, ?_⟩
      · rw [render_cons]
        intro he
        have hne : (n :: ns) ≠ [] := by simp
        generalize n :: ns = l at *
        obtain ⟨m, k, rfl⟩ : ∃ m k, l = m ++ [k] :=
          ⟨l.dropLast, l.getLast hne, (List.dropLast_concat_getLast hne).symm⟩
        have hk := (names_cons.1 (names_append.1 hns).2).1
        rw [slashed_snoc, List.getLast?_append] at he
        cases k with
        | nil => exact hk.1 rfl
        | cons c cs =>
          simp only [List.getLast?_cons_cons] at he
          cases hl : (c :: cs).getLast? with
          | none => simp at hl
          | some x =>
            rw [hl] at he
            simp at he
            have : x ∈ c :: cs := List.mem_of_getLast? hl
            exact hk.2.1 (he ▸ this)
      · rw [render_cons]; exact slashed_getElem_no_double hns
  · rintro (rfl | ⟨h1, h2, h3, h4⟩)
    · exact ⟨[], names_nil, rfl⟩
    · obtain ⟨cs, rfl⟩ : ∃ cs, p = '/' :: cs := by
        cases p with
        | nil => simp at h1
        | cons c cs => simp at h1; exact ⟨cs, by rw [h1]⟩
      have hj := join_split '/' cs
      have hne := split_ne_nil '/' cs
      have hsl : ∀ w ∈ split '/' cs, '/' ∉ w := fun w hw => not_mem_of_mem_split hw
      generalize split '/' cs = ws at hj hne hsl
      have hp : '/' :: cs = slashed ws := by
        cases ws with
        | nil => exact absurd rfl hne
        | cons w ws => rw [← hj, join_cons_slashed]; rfl
      refine ⟨ws, ?_, by rw [hp, render_ne_nil hne]⟩
      intro n hn
      refine ⟨?_, hsl n hn, ?_⟩
      · rintro rfl
        obtain ⟨x, y, rfl⟩ := List.append_of_mem hn
        rw [slashed_append] at hp
        cases y with
        | nil =>
          rw [hp] at h2
          simp [slashed] at h2
        | cons k ks =>
          exact h4 (slashed x) (k ++ slashed ks) (by rw [hp]; simp [slashed])
      · intro hd
        obtain ⟨x, y, rfl⟩ := List.append_of_mem hn
        apply h3
        rw [hp, slashed_append]
        simp [slashed, hd]

/-- C08: a non-empty namespace survives the trip through its path. -/
theorem C08_namespace_roundtrip (ns : List Str) (h : Names ns) (hne : ns ≠ []) :
    fromNamespace ns = render ns ∧ toNamespace (fromNamespace ns) = ns := by
  refine ⟨fromNamespace_eq hne, ?_⟩
  rw [fromNamespace_eq hne, render_ne_nil hne]
  unfold toNamespace
  rw [pathAttrPartition_of_no_dot (dot_not_mem_slashed h)]
  have hs : startsWith (slashed ns) [SEP] = true := by
    cases ns with
    | nil => exact absurd rfl hne
    | cons n ns => exact startsWith_iff.2 ⟨n ++ slashed ns, rfl⟩
  simp only [hs, if_true]
  show (split '/' (slashed ns)).drop 1 = ns
  rw [split_slashed h]; rfl

/-- C08: every absolute path without attribute separator survives the trip through its namespace
(no well-formedness needed, the world path included). -/
theorem C08_path_roundtrip (p : Str) (h : p.head? = some '/') (hd : '.' ∉ p) :
    fromNamespace (toNamespace p) = p := by
  obtain ⟨cs, rfl⟩ : ∃ cs, p = '/' :: cs := by
    cases p with
    | nil => simp at h
    | cons c cs => simp at h; exact ⟨cs, by rw [h]⟩
  unfold toNamespace
  rw [pathAttrPartition_of_no_dot hd]
  have hs : startsWith ('/' :: cs) [SEP] = true := startsWith_iff.2 ⟨cs, rfl⟩
  simp only [hs, if_true]
  have : split SEP ('/' :: cs) = [] :: split '/' cs := by simp [split, SEP]
  rw [this]
  show '/' :: join ['/'] (split '/' cs) = _
  rw [join_split]

/-- C08, attribute paths: the namespace of an attribute path is that of its node. -/
theorem C08_attr_path_namespace (ns : List Str) (a : Str) (h : Names ns) (hne : ns ≠ [])
    (ha : a ≠ []) (hd : '.' ∉ a) : toNamespace (makeAttrPath (render ns) a) = ns := by
  have h0 := (C08_namespace_roundtrip ns h hne).2
  rw [fromNamespace_eq hne] at h0
  unfold toNamespace at h0 ⊢
  rw [pathAttrPartition_of_no_dot (dot_not_mem_render h)] at h0
  have : pathAttrPartition (makeAttrPath (render ns) a) = (render ns, some a) := by
    unfold pathAttrPartition makeAttrPath ATTR_SEP isAttrPath
    rw [if_neg (by simp [ATTR_SEP]), if_neg, List.append_assoc]
    · show (match rpartition? ['.'] (render ns ++ '.' :: a) with
        | some (a, b) => (a, some b)
        | none => ([], some _)) = _
      rw [rpartition?_char hd]
    · intro he
      rw [List.getLast?_append] at he
      cases hl : a.getLast? with
      | none => exact ha (List.getLast?_eq_none_iff.1 hl)
      | some x => rw [hl] at he; simp at he; exact hd (he ▸ List.mem_of_getLast? hl)
  rw [this]; exact h0

/-- C08, boundary: the namespace of the world path is one empty name, and a name with a dot does not
survive. -/
theorem C08_boundary : toNamespace WORLD = [[]] ∧
    toNamespace (fromNamespace ["a.b".toList]) = ["a".toList] := by decide +kernel

example : Names ["node".toList, "child_1".toList] ∧
    fromNamespace ["node".toList, "child_1".toList] = "/node/child_1".toList ∧
    toNamespace "/node/child_1".toList = ["node".toList, "child_1".toList] := by decide +kernel

/-! ## C09 -/

/-- C09: parent, name and join agree. -/
theorem C09_parent_name_join (ns : List Str) (n : Str) (h : Names (ns ++ [n])) :
    parentPath (render (ns ++ [n])) = render ns ∧
    nodeName (render (ns ++ [n])) = n ∧
    joinNodePath (render ns) n = render (ns ++ [n]) ∧
    joinNodePath (parentPath (render (ns ++ [n]))) (nodeName (render (ns ++ [n])))
      = render (ns ++ [n]) := by
  have hm := names_append.1 h
  have hl := (names_cons.1 hm.2).1
  have h1 := parentPath_render_snoc h
  have h2 : nodeName (render (ns ++ [n])) = n := by
    have hw : render (ns ++ [n]) ≠ WORLD := by rw [ne_eq, render_eq_world h]; simp
    unfold nodeName
    rw [if_neg hw, render_snoc, rpartLast_snoc hl.2.1]
  have h3 : joinNodePath (render ns) n = render (ns ++ [n]) := by
    unfold joinNodePath joinNodePaths
    have e : join [SEP] [render ns, n] = render ns ++ '/' :: n := by simp [join, SEP]
    rw [e]
    cases ns with
    | nil =>
      have := replace_sep_slashed (ns := [n]) h (by simp)
      rw [render_nil]
      simpa [slashed, SEP, WORLD, render] using this
    | cons m ms =>
      rw [render_cons, render_snoc, ← slashed_snoc]
      exact replace_slashed h
  exact ⟨h1, h2, h3, by rw [h1, h2, h3]⟩

/-- C09: joining two well formed paths (the second one absolute) concatenates their namespaces. -/
theorem C09_join_paths (a b : List Str) (ha : Names a) (hb : Names b) (hb0 : b ≠ []) (ha0 : a ≠ []) :
    joinNodePath (render a) (render b) = render (a ++ b) := by
  unfold joinNodePath joinNodePaths
  have e : join [SEP] [render a, render b] = render a ++ '/' :: render b := by simp [join, SEP]
  rw [e, render_ne_nil ha0, render_ne_nil hb0, render_ne_nil (by simp [ha0]), slashed_append]
  exact replace_seam ha hb hb0

/-- C09: a text without a slash names itself: it is the whole node name, and the world is above it. -/
theorem C09_bare_name (s : Str) (h : '/' ∉ s) : nodeName s = s ∧ parentPath s = ['/'] := by
  have hw : s ≠ WORLD := fun e => h (e ▸ by simp [WORLD])
  have hr : rpartition? [SEP] s = none := rpartition?_char_none h
  unfold nodeName parentPath rpartLast rpartHead
  rw [if_neg hw, if_neg hw, hr]
  exact ⟨rfl, rfl⟩

example : '/' ∉ "node_2".toList ∧ nodeName "node_2".toList = "node_2".toList ∧
    parentPath "node_2".toList = ['/'] := by decide +kernel

example : Names (["a".toList] ++ ["b_2".toList]) ∧
    parentPath "/a/b_2".toList = "/a".toList ∧ nodeName "/a/b_2".toList = "b_2".toList ∧
    joinNodePath "/".toList "a".toList = "/a".toList ∧
    joinNodePath "/a".toList "/b/c".toList = "/a/b/c".toList := by decide +kernel

/-! ## C10 -/

/-- C10: the ancestors of a path are its proper non-empty prefixes, nearest (longest) first.  The
world path is not listed. -/
theorem C10_ancestors_exact (ns : List Str) (h : Names ns) :
    allAncestorPaths (render ns)
      = ((List.range' 1 (ns.length - 1)).reverse.map (fun k => render (ns.take k))) := by
  rcases eq_nil_or_snoc ns with rfl | ⟨m, l, rfl⟩
  · rfl
  · have hw : render (m ++ [l]) ≠ WORLD := by rw [ne_eq, render_eq_world h]; simp
    unfold allAncestorPaths
    rw [if_neg hw, parentPath_render_snoc h, ancestorLoop_render (names_append.1 h).1]
    simp only [List.length_append, List.length_cons, List.length_nil, Nat.add_sub_cancel,
      Nat.zero_add]
    apply List.map_congr_left
    intro k hk
    rw [List.mem_reverse, List.mem_range'] at hk
    obtain ⟨i, hi, rfl⟩ := hk
    rw [List.take_append_of_le_length (by omega)]

/-- C10: membership. -/
theorem C10_ancestors_mem (ns : List Str) (h : Names ns) (q : Str) :
    q ∈ allAncestorPaths (render ns) ↔
      ∃ ms rest, ms ≠ [] ∧ rest ≠ [] ∧ ns = ms ++ rest ∧ q = render ms := by
  rw [C10_ancestors_exact ns h]
  simp only [List.mem_map, List.mem_reverse, List.mem_range'_1]
  constructor
  · rintro ⟨k, hk, rfl⟩
    refine ⟨ns.take k, ns.drop k, ?_, ?_, (List.take_append_drop k ns).symm, rfl⟩
    · intro he
      have := congrArg List.length he
      simp only [List.length_take, List.length_nil] at this; omega
    · intro he
      have := congrArg List.length he
      simp only [List.length_drop, List.length_nil] at this; omega
  · rintro ⟨ms, rest, h1, h2, rfl, rfl⟩
    have := List.length_pos_iff.2 h1
    have := List.length_pos_iff.2 h2
    exact ⟨ms.length, by simp; omega, by simp⟩

/-- C10: no duplicates. -/
theorem C10_ancestors_nodup (ns : List Str) (h : Names ns) : (allAncestorPaths (render ns)).Nodup := by
  rw [C10_ancestors_exact ns h]
  unfold List.Nodup
  rw [List.pairwise_map]
  rw [List.pairwise_reverse]
  refine List.Pairwise.imp_of_mem ?_ (List.nodup_range' (step := 1))
  intro a b ha hb hab he
  rw [List.mem_range'_1] at ha hb
  have := congrArg List.length (render_inj (names_take h a) (names_take h b) he.symm)
  simp only [List.length_take] at this
  omega

/-- C10: the ancestor test is the proper prefix relation on namespaces, except that the world is an
ancestor of everything, itself included. -/
theorem C10_is_ancestor (ns ms : List Str) (hn : Names ns) (hm : Names ms) :
    isAncestor (render ns) (render ms) = true ↔
      ms = [] ∨ ∃ rest, rest ≠ [] ∧ ns = ms ++ rest := by
  unfold isAncestor
  by_cases h0 : ms = []
  · subst h0; simp [render_nil]
  · rw [if_neg (by rw [render_eq_world hm]; exact h0), startsWith_iff]
    simp only [h0, false_or]
    rw [render_ne_nil h0]
    by_cases hn0 : ns = []
    · subst hn0
      constructor
      · rintro ⟨t, ht⟩
        have := congrArg List.length ht
        have h3 : slashed ms ≠ [] := fun h => h0 (slashed_eq_nil.1 h)
        have := List.length_pos_iff.2 h3
        simp [render] at *
        omega
      · rintro ⟨rest, h1, h2⟩; simp at h2; exact absurd h2.1 h0
    · rw [render_ne_nil hn0, ← prefix_slashed_iff hm hn]
      simp [SEP]

/-- C10: the ancestor test and the ancestor list agree off the world. -/
theorem C10_test_agrees_with_list (ns ms : List Str) (hn : Names ns) (hm : Names ms) (h0 : ms ≠ []) :
    isAncestor (render ns) (render ms) = true ↔ render ms ∈ allAncestorPaths (render ns) := by
  rw [C10_is_ancestor ns ms hn hm, C10_ancestors_mem ns hn]
  constructor
  · rintro (h | ⟨rest, h1, h2⟩)
    · exact absurd h h0
    · exact ⟨ms, rest, h0, h1, h2, rfl⟩
  · rintro ⟨ms', rest, -, h1, h2, h3⟩
    have : Names ms' := (names_append.1 (h2 ▸ hn)).1
    rw [render_inj hm this h3]
    exact .inr ⟨rest, h1, h2⟩

/-- C10: irreflexive and transitive off the world. -/
theorem C10_strict_order (a b c : List Str) (ha : Names a) (hb : Names b) (hc : Names c) :
    (a ≠ [] → isAncestor (render a) (render a) = false) ∧
    (isAncestor (render a) (render b) = true → isAncestor (render b) (render c) = true →
      isAncestor (render a) (render c) = true) := by
  constructor
  · intro h0
    rw [Bool.eq_false_iff, ne_eq, C10_is_ancestor a a ha ha]
    rintro (h | ⟨rest, h1, h2⟩)
    · exact h0 h
    · have h3 := congrArg List.length h2
      have h4 := List.length_pos_iff.2 h1
      rw [List.length_append] at h3; omega
  · rw [C10_is_ancestor a b ha hb, C10_is_ancestor b c hb hc, C10_is_ancestor a c ha hc]
    rintro (rfl | ⟨r, h1, rfl⟩) (rfl | ⟨s, h2, h3⟩)
    · exact .inl rfl
    · simp at h3; exact .inl h3.1
    · exact .inl rfl
    · subst h3
      exact .inr ⟨s ++ r, by simp [h1], by simp⟩

/-- C10, finding: the world path counts as its own ancestor. -/
theorem C10_world_reflexive : isAncestor WORLD WORLD = true ∧ allAncestorPaths WORLD = [] := by
  decide

example : allAncestorPaths "/a/bb/a".toList = ["/a/bb".toList, "/a".toList] := by
  have := C10_ancestors_exact ["a".toList, "bb".toList, "a".toList] (by decide)
  exact this.trans (by decide)

example : isAncestor "/ab/c".toList "/a".toList = false ∧ isAncestor "/ab/c".toList "/ab".toList = true := by
  decide

/-! ## C11 -/

/-- C11: depth counts the names. -/
theorem C11_depth (ns : List Str) (h : Names ns) : pathDepth (render ns) = ns.length := by
  unfold pathDepth
  by_cases h0 : ns = []
  · subst h0; rfl
  · rw [if_neg (by rw [render_eq_world h]; exact h0), render_ne_nil h0]
    exact count_slashed h

/-- C11: trimming keeps the first `d` names. -/
theorem C11_trim (ns : List Str) (h : Names ns) (d : Nat) :
    trimToDepth (render ns) d = render (ns.take d) := by
  unfold trimToDepth
  split
  · rename_i hd; subst hd; rfl
  · rw [C11_depth ns h]
    split
    · rw [List.take_of_length_le (by assumption)]
    · rename_i h1 h2
      have h0 : ns ≠ [] := by rintro rfl; simp at h2
      rw [render_ne_nil h0]
      show rsplitHead '/' _ _ = _
      rw [rsplitHead_slashed h _ (by omega)]
      have : ns.length - (ns.length - d) = d := by omega
      rw [this, render_ne_nil]
      intro he
      have := congrArg List.length he
      simp only [List.length_take, List.length_nil] at this; omega

/-- C11: the trimmed path has depth `min d depth` and is the path itself or an ancestor of it. -/
theorem C11_trim_depth (ns : List Str) (h : Names ns) (d : Nat) :
    pathDepth (trimToDepth (render ns) d) = min d (pathDepth (render ns)) ∧
    (trimToDepth (render ns) d = render ns ∨
      isAncestor (render ns) (trimToDepth (render ns) d) = true) := by
  rw [C11_trim ns h, C11_depth _ (names_take h d), C11_depth ns h]
  refine ⟨by simp, ?_⟩
  by_cases hd : ns.length ≤ d
  · left; rw [List.take_of_length_le hd]
  · right
    rw [C10_is_ancestor _ _ h (names_take h d)]
    refine .inr ⟨ns.drop d, ?_, (List.take_append_drop d ns).symm⟩
    intro he
    have := congrArg List.length he
    simp at this; omega

/-- C11: the root of a path is its first name. -/
theorem C11_root (ns : List Str) (h : Names ns) : rootPath (render ns) = render (ns.take 1) := by
  cases ns with
  | nil => rfl
  | cons n ns =>
    have hn := (names_cons.1 h).1
    rw [render_cons]
    have e : (slashed (n :: ns)).drop 1 = n ++ slashed ns := rfl
    unfold rootPath
    rw [e]
    cases ns with
    | nil =>
      simp only [slashed, List.append_nil]
      have : partition? [SEP] n = none := partition?_char_none hn.2.1
      rw [this]; simp [render, slashed, SEP]
    | cons m ms =>
      have : partition? [SEP] (n ++ slashed (m :: ms)) = some (n, m ++ slashed ms) :=
        partition?_char hn.2.1
      rw [this]; simp [render, slashed, SEP]

example : pathDepth "/a/b/c".toList = 3 ∧ trimToDepth "/a/b/c".toList 2 = "/a/b".toList ∧
    trimToDepth "/a/b/c".toList 0 = "/".toList ∧ trimToDepth "/a/b/c".toList 7 = "/a/b/c".toList ∧
    rootPath "/a/b/c".toList = "/a".toList := by decide +kernel

/-! ## C12 -/

/-- Helper for C12: the ancestor itself is replaced by the world. -/
theorem C12_replace_all_by_world (old : List Str) (ho : Names old) (h0 : old ≠ []) :
    replaceAncestor (render old) (render old) WORLD = WORLD := by
  unfold replaceAncestor addTerminator
  rw [render_ne_nil h0]
  have hw : slashed old ++ [SEP] ≠ WORLD := by
    intro he
    have h1 := congrArg List.length he
    have h3 : slashed old ≠ [] := fun h => h0 (slashed_eq_nil.1 h)
    have := List.length_pos_iff.2 h3
    rw [List.length_append] at h1; simp only [WORLD, List.length_cons, List.length_nil] at h1; omega
  simp only [if_neg hw]
  have : partition? (slashed old ++ [SEP]) (slashed old ++ [SEP]) = some ([], []) :=
    partition?_eq (by simp) (by simp) (by simp)
  simp only [replaceOne, this]
  decide

/-- C12 (partial: the old ancestor is not the world): the ancestor prefix is rewritten and nothing
else, also when the ancestor's text occurs again later. -/
theorem C12_replace_ancestor_partial (old new rest : List Str) (ho : Names old) (hn : Names new)
    (hr : Names rest) (h0 : old ≠ []) :
    replaceAncestor (render (old ++ rest)) (render old) (render new) = render (new ++ rest) := by
  by_cases hne : new ++ rest = []
  · obtain ⟨rfl, rfl⟩ := List.append_eq_nil_iff.1 hne
    rw [List.append_nil]
    exact C12_replace_all_by_world old ho h0
  unfold replaceAncestor addTerminator
  rw [render_ne_nil h0, render_ne_nil (by simp [h0])]
  have hw : slashed old ++ [SEP] ≠ WORLD := by
    intro he
    have h1 := congrArg List.length he
    have h3 : slashed old ≠ [] := fun h => h0 (slashed_eq_nil.1 h)
    have := List.length_pos_iff.2 h3
    rw [List.length_append] at h1; simp only [WORLD, List.length_cons, List.length_nil] at h1; omega
  simp only [if_neg hw]
  have hone : replaceOne (slashed (old ++ rest) ++ [SEP]) (slashed old ++ [SEP]) (render new ++ [SEP])
      = render new ++ '/' :: (slashed rest ++ [SEP]).drop 1 := by
    have e : slashed (old ++ rest) ++ [SEP] = [] ++ (slashed old ++ [SEP]) ++ (slashed rest ++ [SEP]).drop 1 := by
      rw [slashed_append]
      cases rest with
      | nil => simp [slashed]
      | cons r rs => simp [slashed, SEP]
    unfold replaceOne
    rw [partition?_eq (a := []) (b := (slashed rest ++ [SEP]).drop 1) (by simp) e]
    · simp [SEP]
    · intro a' b' h; simp
  rw [hone]
  cases rest with
  | nil =>
    simp only [List.append_nil] at hne ⊢
    rw [render_ne_nil hne]
    simp [slashed, SEP, replace_slashed hn]
  | cons r rs =>
    have e : render new ++ '/' :: (slashed (r :: rs) ++ [SEP]).drop 1
        = (render new ++ slashed (r :: rs)) ++ [SEP] := by simp [slashed, SEP]
    rw [e, List.dropLast_concat]
    cases new with
    | nil =>
      rw [List.nil_append, render_cons, render_nil]
      exact replace_sep_slashed hr (by simp)
    | cons n ns =>
      rw [List.cons_append, render_cons, render_cons, ← slashed_append]
      exact replace_slashed (names_append.2 ⟨hn, hr⟩)

/-- C12 fails when the old ancestor is the world (the terminator makes the test for the world
fail): the path comes back unchanged instead of re-rooted. -/
theorem C12_world_ancestor_violation :
    replaceAncestor "/a/b".toList "/".toList "/new".toList = "/a/b".toList := by decide +kernel

/-- C12: a path which does not have the old ancestor can be rewritten in its middle. -/
theorem C12_not_an_ancestor_violation :
    isAncestor "/x/a/b".toList "/a".toList = false ∧
    replaceAncestor "/x/a/b".toList "/a".toList "/n".toList = "/x/n/b".toList := by decide +kernel

example : replaceAncestor "/a/b/a/b/c".toList "/a/b".toList "/z".toList = "/z/a/b/c".toList := by
  decide +kernel

/-! ## C13 -/

/-- C13: exact result.  `start` is any text of the form `/a/b/..` with separator-free names; the
world path is the case `ns = [[]]` of one empty name, and popping everything leaves the empty
text. -/
theorem C13_expand_exact (r : Str) (ns : List Str) (hs : ∀ n ∈ ns, '/' ∉ n) (hr : r ≠ [])
    (hrel : r.head? ≠ some '/') :
    expandRelative (some r) (slashed ns) = some (slashed (walk ns (split '/' r))) := by
  unfold expandRelative
  cases r with
  | nil => exact absurd rfl hr
  | cons c cs =>
    have h1 : (c :: cs) ≠ WORLD := by
      intro he; simp [WORLD] at he; exact hrel (by simp [he.1])
    have h2 : ¬ startsWith (c :: cs) [SEP] = true := by
      rw [startsWith_iff]; rintro ⟨t, ht⟩
      simp [SEP] at ht; exact hrel (by simp [ht.1])
    simp only [if_neg h1, if_neg h2]
    congr 1
    have hw : ∀ w ∈ split '/' (c :: cs), '/' ∉ w := fun w hw => not_mem_of_mem_split hw
    show List.foldl expandStep _ (split '/' (c :: cs)) = _
    generalize split '/' (c :: cs) = ds at hw
    exact foldl_expandStep ds ns hs hw

/-- C13 (partial: the walk must not pop the last name, and the start is not the world): the result
is the well formed path of the walked namespace. -/
theorem C13_expand_partial (r : Str) (ns : List Str) (hs : Names ns) (h0 : ns ≠ []) (hr : r ≠ [])
    (hrel : r.head? ≠ some '/') (hw : walk ns (split '/' r) ≠ []) :
    expandRelative (some r) (render ns) = some (render (walk ns (split '/' r))) := by
  rw [render_ne_nil h0, render_ne_nil hw]
  exact C13_expand_exact r ns (fun n hn => (hs n hn).2.1) hr hrel

/-- C13: absolute paths come back unchanged, and so does every non-empty expansion result. -/
theorem C13_absolute_unchanged (r start : Str) (h : r.head? = some '/') :
    expandRelative (some r) start = some r := by
  unfold expandRelative
  cases r with
  | nil => simp at h
  | cons c cs =>
    simp at h; subst h
    have : startsWith ('/' :: cs) [SEP] = true := startsWith_iff.2 ⟨cs, rfl⟩
    simp only [this, if_true, ite_self]

/-- C13: expansion is idempotent wherever it gives a non-empty text. -/
theorem C13_idempotent (r : Str) (ns : List Str) (hs : ∀ n ∈ ns, '/' ∉ n) (q start : Str)
    (h : expandRelative (some r) (slashed ns) = some q) (hq : q ≠ []) :
    expandRelative (some q) start = some q := by
  apply C13_absolute_unchanged
  by_cases hr : r = []
  · subst hr; simp [expandRelative] at h
  · by_cases hrel : r.head? = some '/'
    · rw [C13_absolute_unchanged r _ hrel] at h
      cases h; exact hrel
    · rw [C13_expand_exact r ns hs hr hrel] at h
      cases h
      cases hw : walk ns (split '/' r) with
      | nil => rw [hw] at hq; exact absurd rfl hq
      | cons a b => rfl

/-- C13: the directives `..`, `.` and the empty name never enter the walked namespace. -/
theorem C13_no_directives (ns ds : List Str) (hs : Names ns) :
    ∀ n ∈ walk ns ds, n ≠ [] ∧ n ≠ ['.'] ∧ n ≠ ['.', '.'] := by
  have hs' : ∀ n ∈ ns, n ≠ [] ∧ n ≠ ['.'] ∧ n ≠ ['.', '.'] := by
    intro n hn
    obtain ⟨h1, -, h3⟩ := hs n hn
    refine ⟨h1, ?_, ?_⟩ <;> (rintro rfl; exact h3 (by simp))
  clear hs
  induction ds generalizing ns with
  | nil => exact hs'
  | cons d ds ih =>
    rw [walk]
    split
    · exact ih _ (fun n hn => hs' n (List.dropLast_subset _ hn))
    · split
      · exact ih _ hs'
      · rename_i h1 h2
        apply ih
        intro n hn
        rw [List.mem_append, List.mem_singleton] at hn
        rcases hn with hn | rfl
        · exact hs' n hn
        · exact ⟨fun h => h2 (.inr h), fun h => h2 (.inl h), h1⟩

/-- C13 fails at the root: popping the last name gives the empty text, not the world path, and a
name expanded against the world path gets two separators. -/
theorem C13_root_violation :
    expandRelative (some "..".toList) "/a".toList = some [] ∧
    expandRelative (some "a".toList) "/".toList = some "//a".toList ∧
    expandRelative (some "../b".toList) "/".toList = some "/b".toList := by decide +kernel

/-- C13: nothing to expand. -/
theorem C13_empty (start : Str) : expandRelative none start = none ∧
    expandRelative (some []) start = none := ⟨rfl, rfl⟩

example : expandRelative (some "../../x/./y//z".toList) "/a/b/c".toList = some "/a/x/y/z".toList := by
  decide +kernel

/-! ## C14 -/

/-- C14: an attribute path splits back in what it was built from, whatever the node path (dots in
it included). -/
theorem C14_attr_roundtrip (p a : Str) (ha : a ≠ []) (hd : '.' ∉ a) :
    pathAttrPartition (makeAttrPath p a) = (p, some a) ∧
    nodePathFromAttrPath (makeAttrPath p a) = p ∧
    attrNameFromAttrPath (makeAttrPath p a) = some a ∧ isAttrPath (makeAttrPath p a) = true := by
  have : pathAttrPartition (makeAttrPath p a) = (p, some a) := by
    unfold pathAttrPartition makeAttrPath ATTR_SEP isAttrPath
    rw [if_neg (by simp [ATTR_SEP]), if_neg, List.append_assoc]
    · show (match rpartition? ['.'] (p ++ '.' :: a) with
        | some (a, b) => (a, some b)
        | none => ([], some _)) = _
      rw [rpartition?_char hd]
    · intro he
      rw [List.getLast?_append] at he
      cases hl : a.getLast? with
      | none => exact ha (List.getLast?_eq_none_iff.1 hl)
      | some x => rw [hl] at he; simp at he; exact hd (he ▸ List.mem_of_getLast? hl)
  refine ⟨this, by rw [nodePathFromAttrPath, this], by rw [attrNameFromAttrPath, this], ?_⟩
  simp [isAttrPath, makeAttrPath]

/-- C14: when splitting gives an attribute name, joining gives the path back, the name is non-empty
and has no dot (so the cut is at the last dot). -/
theorem C14_split_join (p q a : Str) (h : pathAttrPartition p = (q, some a)) :
    makeAttrPath q a = p ∧ a ≠ [] ∧ '.' ∉ a := by
  unfold pathAttrPartition at h
  split at h
  · simp at h
  · rename_i h1
    split at h
    · simp at h
    · rename_i h2
      split at h
      · rename_i x y he
        simp only [Prod.mk.injEq, Option.some.injEq] at h
        obtain ⟨rfl, rfl⟩ := h
        obtain ⟨h3, h4⟩ := rpartition?_char_some (c := '.') he
        subst h3
        refine ⟨by simp [makeAttrPath, ATTR_SEP], ?_, h4⟩
        rintro rfl
        simp [ATTR_SEP] at h2
      · rename_i he
        have := rpartition?_char_none_iff (c := '.').1 he
        exfalso; apply h1; simp [isAttrPath, ATTR_SEP, this]

/-- C14: there is no attribute name exactly when there is no dot or the text ends in one; the path
is then returned as it was. -/
theorem C14_no_attr (p : Str) :
    ((pathAttrPartition p).2 = none ↔ ('.' ∉ p ∨ p.getLast? = some '.')) ∧
    ((pathAttrPartition p).2 = none → (pathAttrPartition p).1 = p) := by
  unfold pathAttrPartition isAttrPath
  by_cases h1 : '.' ∈ p
  · by_cases h2 : p.getLast? = some '.'
    · simp [ATTR_SEP, h1, h2]
    · simp only [ATTR_SEP, List.contains_eq_mem, h1, decide_true, not_true_eq_false, if_false, h2]
      split <;> simp
  · simp [ATTR_SEP, h1]

example : pathAttrPartition "/a/b.attr".toList = ("/a/b".toList, some "attr".toList) ∧
    pathAttrPartition "/a.b.attr".toList = ("/a.b".toList, some "attr".toList) ∧
    pathAttrPartition "/a/b.".toList = ("/a/b.".toList, none) := by decide +kernel

end Nxt.Props
