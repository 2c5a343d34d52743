import Verif.Spec.AddTree
import Verif.Props.Duplicate
/-!
# Property C154: nodes added with the data of their children
-/
namespace Nxt.Props
open Dict NodeData LayerData Spec Path Duplicate AddTree

namespace Tree

theorem treeName_isName {cc : Names.CharClass} {fix : Bool} {t : NodeTree} (h : TreeNamed cc fix t) : IsName (treeName t) := by
  obtain ⟨name, d, ks⟩ := t
  cases name with
  | none => exact (by decide : IsName "node".toList)
  | some x => rw [TreeNamed] at h; exact h.1.1

mutual

theorem rows_prefix (cc : Names.CharClass) (fix : Bool) (qs : List Str) (hq : Names qs) : (t : NodeTree) → TreeNamed cc fix t →
    ∀ r ∈ treeRows qs t, Names r.1 ∧ ∃ rest, r.1 = qs ++ treeName t :: rest
  | .node name d ks, h, r, hr => by
    have hN : Names (qs ++ [name.getD "node".toList]) :=
      names_append.2 ⟨hq, names_cons.2 ⟨treeName_isName h, names_nil⟩⟩
    rw [treeRows, List.mem_cons] at hr
    rcases hr with rfl | hr
    · exact ⟨hN, [], rfl⟩
    · rw [TreeNamed] at h
      obtain ⟨h1, t, ht, rest, h2⟩ := trees_prefix cc fix _ hN ks h.2 r hr
      exact ⟨h1, treeName t :: rest, by rw [h2]; simp [treeName]⟩

theorem trees_prefix (cc : Names.CharClass) (fix : Bool) (qs : List Str) (hq : Names qs) : (ts : List NodeTree) →
    TreesNamed cc fix ts → ∀ r ∈ treesRows qs ts, Names r.1 ∧ ∃ t ∈ ts, ∃ rest, r.1 = qs ++ treeName t :: rest
  | [], _, r, hr => by rw [treesRows] at hr; cases hr
  | t :: ts, h, r, hr => by
    rw [treesRows, List.mem_append] at hr
    rw [TreesNamed] at h
    rcases hr with hr | hr
    · obtain ⟨h1, h2⟩ := rows_prefix cc fix qs hq t h.1 r hr
      exact ⟨h1, t, by simp, h2⟩
    · obtain ⟨h1, t', ht', h2⟩ := trees_prefix cc fix qs hq ts h.2.2 r hr
      exact ⟨h1, t', by simp [ht'], h2⟩

end

/-- The child orders of nodes as they are made. -/
theorem construct_order {layer : Option Str} {p : Str} {d : Dict Str Val} {n : Dict Str Val}
    (h : constructNode layer p d = some n) : ∃ o : List Str, getAttr n A_CHILD_ORDER = .list (o.map Val.str) ∧ o.Nodup := by
  unfold constructNode createSpecNode at h
  simp only [Option.bind_eq_bind, Option.bind_eq_some_iff] at h
  obtain ⟨name, -, user, -, attrs, -, order, -, h⟩ := h
  simp only [Bool.false_eq_true, if_false, Option.pure_def, Option.some.injEq] at h
  refine ⟨dedup order [], ?_, (dedup_spec order [] List.nodup_nil).1⟩
  subst h
  apply getAttr_of_get?
  have key : ∀ (l : List Str) (f : Str → Val) (m : Dict Str Val), (∀ a ∈ l, A_CHILD_ORDER ≠ a ++ M_SOURCE) →
      get? A_CHILD_ORDER (l.foldl (fun at' a => set (a ++ M_SOURCE) (f a) at') m) = get? A_CHILD_ORDER m := by
    intro l f
    induction l with
    | nil => intro m _; rfl
    | cons a l ih =>
      intro m hl
      rw [List.foldl_cons, ih _ (fun b hb => hl b (by simp [hb])), get?_set, if_neg (hl a (by simp))]
  rw [key _ _ _ (by decide +kernel), get?_set, if_neg (by decide +kernel), get?_set, if_neg (by decide +kernel), get?_set,
    if_pos rfl]

/-- What linking does to the parent. -/
theorem link_with {T : Nodes} (h : OrdersOk T) (p x : Str) (n : Dict Str Val) (hn : get? p T = some n) :
    ∃ n', get? p (linkParent T p x) = some n' ∧ WithChildren [x] n n' := by
  obtain ⟨o, o1, o2⟩ := h p n hn
  have hinj : ∀ o' : List Str, getAttr n "_child_order".toList = .list (o'.map Val.str) → o' = o := by
    intro o' h'
    have e1 := names_map o'
    have e2 := names_map o
    rw [← h'] at e1; rw [← o1, e1] at e2
    exact Option.some.inj e2
  by_cases hx : x ∈ o
  · refine ⟨n, by rw [linkParent_listed hn o1 hx, hn], fun _ _ => rfl, fun o' h' => ?_⟩
    rw [hinj o' h', o1]
    simp [hx]
  · refine ⟨set A_CHILD_ORDER (.list ((o ++ [x]).map Val.str)) n, ?_, fun a ha => by rw [get?_set]; exact if_neg ha, fun o' h' => ?_⟩
    · unfold linkParent
      rw [hn]
      simp only [show A_CHILD_ORDER = "_child_order".toList from rfl, o1, names_map]
      rw [if_neg hx, get?_set, if_pos rfl, C15_disjoint o [x] o2 (by simpa using hx)]
    · rw [hinj o' h']
      rw [getAttr_of_get? (show get? "_child_order".toList _ = _ from by rw [get?_set]; exact if_pos rfl)]
      simp [hx]

theorem with_trans {x : Str} {xs : List Str} {n n' n'' : Dict Str Val} (hx : x ∉ xs)
    (ho : ∃ o : List Str, getAttr n "_child_order".toList = .list (o.map Val.str))
    (h1 : WithChildren [x] n n') (h2 : WithChildren xs n' n'') : WithChildren (x :: xs) n n'' := by
  refine ⟨fun a ha => by rw [h2.1 a ha, h1.1 a ha], fun o h => ?_⟩
  rw [h2.2 _ (h1.2 o h), List.append_assoc]
  congr 3
  rw [List.filter_cons, List.filter_cons]
  have hf : xs.filter (fun y => decide (y ∉ o ++ (if decide (x ∉ o) = true then x :: [].filter (fun y => decide (y ∉ o)) else
      [].filter (fun y => decide (y ∉ o))))) = xs.filter (fun y => decide (y ∉ o)) := by
    apply List.filter_congr
    intro y hy
    have : y ≠ x := fun h => hx (h ▸ hy)
    by_cases hxo : x ∈ o <;> simp [hxo, this]
  rw [hf]
  split <;> simp

theorem with_nil (n : Dict Str Val) : WithChildren [] n n := ⟨fun _ _ => rfl, fun o h => by simpa using h⟩

/-- The layer `T'` is `T` with the nodes of `rows` added below `qs`, those at the top named `names`. -/
structure Post (e : Env) (T T' : Nodes) (qs names : List Str) (rows : List (List Str × Dict Str Val × List Str)) : Prop where
  keys : keys T' = keys T ++ rows.map (fun r => render r.1)
  orders : OrdersOk T'
  rest : ∀ q ∈ Dict.keys T, q ≠ render qs → get? q T' = get? q T
  parent : ∀ n, get? (render qs) T = some n → ∃ n', get? (render qs) T' = some n' ∧ WithChildren names n n'
  rows : ∀ r ∈ rows, ∃ n n', constructNode e.real (render r.1) r.2.1 = some n ∧ get? (render r.1) T' = some n' ∧
    WithChildren r.2.2 n n'

/-- What is needed of the layer and its composition. -/
structure Pre (e : Env) (fix : Bool) (K : List Str) (T : Nodes) (rows : List (List Str × Dict Str Val × List Str)) : Prop where
  orders : OrdersOk T
  old : ∀ p ∈ Dict.keys T, p ∈ K
  new : ∀ r ∈ rows, render r.1 ∉ Dict.keys T
  known : ∀ r ∈ rows, render r.1 ∈ K
  comp : fix = true → ∀ T1, (∀ p ∈ Dict.keys T1, p ∈ K) → ∀ r ∈ rows, render r.1 ∈ e.comp T1 → render r.1 ∈ Dict.keys T1
  load : ∀ r ∈ rows, (constructNode e.real (render r.1) r.2.1).isSome = true

theorem nameFor_kept (e : Env) (fix : Bool) (T : Nodes) (qs : List Str) (name : Option Str) (d : Dict Str Val) (ks : List NodeTree)
    (h : TreeNamed e.cc fix (.node name d ks)) (hN : Names (qs ++ [name.getD "node".toList]))
    (hfree : fix = true → render (qs ++ [name.getD "node".toList]) ∉ e.comp T) :
    nameFor e fix T (render qs) name = some (name.getD "node".toList) := by
  rw [TreeNamed] at h
  unfold nameFor
  cases fix with
  | false =>
    cases name with
    | none => exact absurd h.1 (fun h => nomatch h)
    | some x => rfl
  | true =>
    have hj : joinNodePath (render qs) (name.getD "node".toList) ∉ e.comp T := by
      rw [(C09_parent_name_join _ _ hN).2.2.1]; exact hfree rfl
    have hw : Names.wantedNodeName e.cc name = some (name.getD "node".toList) := by
      cases name with
      | none => rfl
      | some x =>
        obtain ⟨⟨c, cs, rfl, hd⟩, hw, hnn⟩ := h.1.2 rfl
        rw [C18_wanted e.cc c cs hw hd, if_neg hnn]; rfl
    unfold Names.uniqueNodeName
    rw [if_pos rfl, hw]
    simp only
    rw [if_neg (by simpa using hj)]

mutual

theorem tree_post (e : Env) (fix : Bool) (K : List Str) (qs : List Str) (hq : Names qs) (T : Nodes) : (t : NodeTree) →
    TreeNamed e.cc fix t → Pre e fix K T (treeRows qs t) →
    ∃ T', addTree e fix T (render qs) t = some (T', (treeRows qs t).map (fun r => render r.1)) ∧
      Post e T T' qs [treeName t] (treeRows qs t)
  | .node name d ks, h, pre => by
    have hN : Names (qs ++ [name.getD "node".toList]) :=
      names_append.2 ⟨hq, names_cons.2 ⟨treeName_isName h, names_nil⟩⟩
    generalize hx : name.getD "node".toList = x at hN
    have hrow : (qs ++ [x], d, ks.map treeName) ∈ treeRows qs (.node name d ks) := by rw [treeRows, hx]; simp
    have hrows : treeRows qs (.node name d ks) = (qs ++ [x], d, ks.map treeName) :: treesRows (qs ++ [x]) ks := by rw [treeRows, hx]
    have hnew := pre.new _ hrow
    have hname : nameFor e fix T (render qs) name = some x := by
      rw [← hx]
      refine nameFor_kept e fix T qs name d ks h (by rw [hx]; exact hN) (fun hf hc => ?_)
      rw [hx] at hc
      exact hnew (pre.comp hf T pre.old _ hrow hc)
    obtain ⟨n, hn⟩ := Option.isSome_iff_exists.1 (pre.load _ hrow)
    obtain ⟨l1, l2, l3⟩ := linkParent_spec T (render qs) x
    have hadd : addNode e T (render qs) x d = some (set (render (qs ++ [x])) n (linkParent T (render qs) x)) := by
      rw [addNode_eq e T qs x hN, hn]; rfl
    have hkeys : keys (set (render (qs ++ [x])) n (linkParent T (render qs) x)) = keys T ++ [render (qs ++ [x])] := by
      rw [keys_set, if_neg (by rw [l1]; exact hnew), l1]
    generalize hT0 : set (render (qs ++ [x])) n (linkParent T (render qs) x) = T0 at hadd hkeys
    have hord : OrdersOk T0 := by
      intro q m hq
      rw [← hT0, get?_set] at hq
      split at hq
      · cases hq; exact construct_order hn
      · exact pre.orders.link _ _ q m hq
    have hks : TreesNamed e.cc fix ks := by rw [TreeNamed] at h; exact h.2
    have hsub : ∀ r ∈ treesRows (qs ++ [x]) ks, r ∈ treeRows qs (.node name d ks) := by
      intro r hr; rw [hrows]; exact List.mem_cons_of_mem _ hr
    obtain ⟨T', a1, p⟩ := trees_post e fix K (qs ++ [x]) hN T0 ks hks {
      orders := hord
      old := by
        intro p hp
        rw [hkeys, List.mem_append, List.mem_singleton] at hp
        rcases hp with hp | rfl
        · exact pre.old p hp
        · exact pre.known _ hrow
      new := by
        intro r hr hk
        rw [hkeys, List.mem_append, List.mem_singleton] at hk
        rcases hk with hk | hk
        · exact pre.new r (hsub r hr) hk
        · obtain ⟨r1, t, -, rest, r2⟩ := trees_prefix e.cc fix _ hN ks hks r hr
          have := congrArg List.length (render_inj r1 hN hk)
          rw [r2] at this
          simp at this
      known := fun r hr => pre.known r (hsub r hr)
      comp := fun hf T1 h1 r hr => pre.comp hf T1 h1 r (hsub r hr)
      load := fun r hr => pre.load r (hsub r hr) }
    have hqne : render qs ≠ render (qs ++ [x]) := by
      intro hc
      have := congrArg List.length (render_inj hq hN hc)
      simp at this
    have hget0 : get? (render (qs ++ [x])) T0 = some n := by rw [← hT0, get?_set, if_pos rfl]
    refine ⟨T', ?_, ?_⟩
    · rw [addTree, hname]
      simp only
      rw [hadd]
      simp only
      rw [(C09_parent_name_join _ _ hN).2.2.1, a1, hrows]
      rfl
    · rw [hrows]
      refine ⟨?_, p.orders, ?_, ?_, ?_⟩
      · rw [p.keys, hkeys, List.append_assoc]; rfl
      · intro q hqk hqq
        have hne : q ≠ render (qs ++ [x]) := fun h => hnew (h ▸ hqk)
        rw [p.rest q (by rw [hkeys]; simp [hqk]) hne, ← hT0, get?_set, if_neg hne, l2 q hqq]
      · intro m hm
        obtain ⟨m', m1, m2⟩ := link_with pre.orders (render qs) x m hm
        refine ⟨m', ?_, by rw [show treeName (.node name d ks) = x from hx]; exact m2⟩
        rw [p.rest _ (by rw [hkeys]; exact List.mem_append_left _ (get?_isSome.1 (by rw [hm]; rfl))) hqne, ← hT0, get?_set,
          if_neg hqne, m1]
      · intro r hr
        rw [List.mem_cons] at hr
        rcases hr with rfl | hr
        · obtain ⟨n', n1, n2⟩ := p.parent n hget0
          exact ⟨n, n', hn, n1, n2⟩
        · exact p.rows r hr

theorem trees_post (e : Env) (fix : Bool) (K : List Str) (qs : List Str) (hq : Names qs) (T : Nodes) : (ts : List NodeTree) →
    TreesNamed e.cc fix ts → Pre e fix K T (treesRows qs ts) →
    ∃ T', addTrees e fix T (render qs) ts = some (T', (treesRows qs ts).map (fun r => render r.1)) ∧
      Post e T T' qs (ts.map treeName) (treesRows qs ts)
  | [], _, pre => by
    refine ⟨T, by rw [addTrees, treesRows]; rfl, ?_⟩
    rw [treesRows]
    exact ⟨by simp, pre.orders, fun _ _ _ => rfl, fun n h => ⟨n, h, with_nil n⟩, fun _ h => nomatch h⟩
  | t :: ts, h, pre => by
    rw [TreesNamed] at h
    obtain ⟨h1, h2, h3⟩ := h
    rw [treesRows] at pre
    obtain ⟨T1, a1, p1⟩ := tree_post e fix K qs hq T t h1
      ⟨pre.orders, pre.old, fun r hr => pre.new r (by simp [hr]), fun r hr => pre.known r (by simp [hr]),
        fun hf T1 hT r hr => pre.comp hf T1 hT r (by simp [hr]), fun r hr => pre.load r (by simp [hr])⟩
    obtain ⟨T2, a2, p2⟩ := trees_post e fix K qs hq T1 ts h3 {
      orders := p1.orders
      old := by
        intro p hp
        rw [p1.keys, List.mem_append, List.mem_map] at hp
        rcases hp with hp | ⟨r, hr, rfl⟩
        · exact pre.old p hp
        · exact pre.known r (by simp [hr])
      new := by
        intro r hr hk
        rw [p1.keys, List.mem_append, List.mem_map] at hk
        rcases hk with hk | ⟨r', hr', hk⟩
        · exact pre.new r (by simp [hr]) hk
        · obtain ⟨r1, t', ht', rest, r2⟩ := trees_prefix e.cc fix qs hq ts h3 r hr
          obtain ⟨s1, rest', s2⟩ := rows_prefix e.cc fix qs hq t h1 r' hr'
          have := render_inj s1 r1 hk
          rw [r2, s2] at this
          have := List.append_cancel_left this
          simp only [List.cons.injEq] at this
          exact h2 (List.mem_map.2 ⟨t', ht', this.1.symm⟩)
      known := fun r hr => pre.known r (by simp [hr])
      comp := fun hf T1 hT r hr => pre.comp hf T1 hT r (by simp [hr])
      load := fun r hr => pre.load r (by simp [hr]) }
    refine ⟨T2, ?_, ?_⟩
    · rw [addTrees, a1]
      simp only
      rw [a2, treesRows, List.map_append]
    · rw [treesRows]
      refine ⟨?_, p2.orders, ?_, ?_, ?_⟩
      · rw [p2.keys, p1.keys, List.map_append, List.append_assoc]
      · intro q hqk hqq
        rw [p2.rest q (by rw [p1.keys]; simp [hqk]) hqq, p1.rest q hqk hqq]
      · intro n hn
        obtain ⟨n1, g1, w1⟩ := p1.parent n hn
        obtain ⟨n2, g2, w2⟩ := p2.parent n1 g1
        obtain ⟨o, o1, -⟩ := pre.orders _ n hn
        exact ⟨n2, g2, with_trans h2 ⟨o, o1⟩ w1 w2⟩
      · intro r hr
        rw [List.mem_append] at hr
        rcases hr with hr | hr
        · obtain ⟨n, n', c1, c2, c3⟩ := p1.rows r hr
          refine ⟨n, n', c1, ?_, c3⟩
          obtain ⟨s1, rest', s2⟩ := rows_prefix e.cc fix qs hq t h1 r hr
          rw [p2.rest _ (by rw [p1.keys]; exact List.mem_append_right _ (List.mem_map.2 ⟨r, hr, rfl⟩)) ?_, c2]
          intro hc
          have := congrArg List.length (render_inj s1 hq hc)
          rw [s2] at this
          simp at this
        · exact p2.rows r hr

end

mutual

theorem rows_nodup (cc : Names.CharClass) (fix : Bool) (qs : List Str) (hq : Names qs) : (t : NodeTree) → TreeNamed cc fix t →
    ((treeRows qs t).map (fun r => render r.1)).Nodup
  | .node name d ks, h => by
    have hN : Names (qs ++ [name.getD "node".toList]) :=
      names_append.2 ⟨hq, names_cons.2 ⟨treeName_isName h, names_nil⟩⟩
    rw [TreeNamed] at h
    rw [treeRows, List.map_cons, List.nodup_cons]
    refine ⟨fun hm => ?_, trees_nodup cc fix _ hN ks h.2⟩
    obtain ⟨r, hr, he⟩ := List.mem_map.1 hm
    obtain ⟨r1, t, -, rest, r2⟩ := trees_prefix cc fix _ hN ks h.2 r hr
    have := congrArg List.length (render_inj r1 hN he)
    rw [r2] at this
    simp at this

theorem trees_nodup (cc : Names.CharClass) (fix : Bool) (qs : List Str) (hq : Names qs) : (ts : List NodeTree) →
    TreesNamed cc fix ts → ((treesRows qs ts).map (fun r => render r.1)).Nodup
  | [], _ => by rw [treesRows]; exact List.nodup_nil
  | t :: ts, h => by
    rw [TreesNamed] at h
    rw [treesRows, List.map_append]
    refine List.nodup_append.2 ⟨rows_nodup cc fix qs hq t h.1, trees_nodup cc fix qs hq ts h.2.2, ?_⟩
    intro a ha b hb hab
    obtain ⟨r, hr, rfl⟩ := List.mem_map.1 ha
    obtain ⟨r', hr', rfl⟩ := List.mem_map.1 hb
    obtain ⟨s1, rest, s2⟩ := rows_prefix cc fix qs hq t h.1 r hr
    obtain ⟨r1, t', ht', rest', r2⟩ := trees_prefix cc fix qs hq ts h.2.2 r' hr'
    have := render_inj s1 r1 hab
    rw [r2, s2] at this
    have := List.append_cancel_left this
    simp only [List.cons.injEq] at this
    exact h.2.1 (List.mem_map.2 ⟨t', ht', this.1.symm⟩)

end

theorem search_mono (taken : Str → Bool) (stem : Str) : ∀ (f k num : Nat) (t r : Str), Names.search taken stem f num t = some r →
    Names.search taken stem (f + k) num t = some r := by
  intro f
  induction f with
  | zero => intro k num t r h; cases h
  | succ f ih =>
    intro k num t r h
    rw [show f + 1 + k = (f + k) + 1 from by omega]
    rw [Names.search] at h ⊢
    split at h
    · rename_i ht; rw [if_pos ht]; exact ih k _ _ _ h
    · rename_i ht; rw [if_neg ht]; exact h

/-- A name which is found is free and proper. -/
theorem found_name (e : Env) (hcc : e.cc.Ok) (T : Nodes) (qs : List Str) (hq : Names qs) (name : Option Str) (r : Str)
    (h : nameFor e true T (render qs) name = some r) : IsName r ∧ render (qs ++ [r]) ∉ e.comp T := by
  unfold nameFor at h
  rw [if_pos rfl] at h
  have hu : Names.uniqueNodeName e.cc (e.comp T) (render qs) name e.rounds = .ok r := by
    split at h
    · rename_i x hx; rw [hx, Option.some.inj h]
    · cases h
  have hne : name ≠ some [] := by
    rintro rfl
    rw [Names.uniqueNodeName, show Names.wantedNodeName e.cc (some []) = none from rfl] at hu
    cases hu
  have hmono : Names.uniqueNodeName e.cc (e.comp T) (render qs) name (e.rounds + ((e.comp T).length + 2)) = .ok r := by
    unfold Names.uniqueNodeName at hu ⊢
    split at hu
    · cases hu
    · rename_i w hw
      simp only at hu ⊢
      split at hu
      · rename_i ht
        rw [if_pos ht]
        cases hs : Names.search (fun t => decide (joinNodePath (render qs) t ∈ e.comp T)) w e.rounds 1 w with
        | none => rw [hs] at hu; cases hu
        | some x => rw [hs] at hu; rw [search_mono _ _ _ _ _ _ _ hs]; exact hu
      · rename_i ht; rw [if_neg ht]; exact hu
  obtain ⟨want, r', -, h2, h3, -, h5, -⟩ := C18_unique_node_name e.cc hcc (e.comp T) qs hq name hne
    (e.rounds + ((e.comp T).length + 2)) (by omega)
  rw [hmono] at h2
  cases h2
  exact ⟨h3, h5⟩

mutual

theorem tree_renamed (e : Env) (hcc : e.cc.Ok) (hsees : ∀ T p, p ∈ keys T → p ∈ e.comp T) (qs : List Str) (hq : Names qs) (T : Nodes) :
    (t : NodeTree) → ∀ T' made, addTree e true T (render qs) t = some (T', made) →
    ∃ t', LikeTree t t' ∧ (∀ r ∈ treeRows qs t', Names r.1) ∧ made = (treeRows qs t').map (fun r => render r.1) ∧
      (∀ p ∈ made, p ∉ keys T) ∧ made.Nodup ∧ keys T' = keys T ++ made
  | .node name d ks, T', made, h => by
    rw [addTree] at h
    cases hn : nameFor e true T (render qs) name with
    | none => rw [hn] at h; cases h
    | some x =>
      rw [hn] at h
      simp only at h
      obtain ⟨x1, x2⟩ := found_name e hcc T qs hq name x hn
      have hN : Names (qs ++ [x]) := names_append.2 ⟨hq, names_cons.2 ⟨x1, names_nil⟩⟩
      have hnew : render (qs ++ [x]) ∉ keys T := fun hk => x2 (hsees T _ hk)
      rw [addNode_eq e T qs x hN] at h
      cases hc : constructNode e.real (render (qs ++ [x])) d with
      | none => rw [hc] at h; cases h
      | some n =>
        rw [hc] at h
        simp only [Option.map_some] at h
        rw [(C09_parent_name_join _ _ hN).2.2.1] at h
        have hkeys : keys (set (render (qs ++ [x])) n (linkParent T (render qs) x)) = keys T ++ [render (qs ++ [x])] := by
          rw [keys_set, if_neg (by rw [(linkParent_spec T (render qs) x).1]; exact hnew), (linkParent_spec T (render qs) x).1]
        cases ha : addTrees e true (set (render (qs ++ [x])) n (linkParent T (render qs) x)) (render (qs ++ [x])) ks with
        | none => rw [ha] at h; cases h
        | some res =>
          obtain ⟨T2, more⟩ := res
          rw [ha] at h
          simp only [Option.some.injEq, Prod.mk.injEq] at h
          obtain ⟨rfl, rfl⟩ := h
          obtain ⟨ks', k1, k2, k3, k4, k5, k6⟩ := trees_renamed e hcc hsees (qs ++ [x]) hN _ ks T2 more ha
          refine ⟨.node (some x) d ks', ?_, ?_, ?_, ?_, ?_, ?_⟩
          · rw [LikeTree]; exact ⟨nofun, rfl, k1⟩
          · intro r hr
            rw [treeRows, List.mem_cons] at hr
            rcases hr with rfl | hr
            · exact hN
            · exact k2 r hr
          · rw [treeRows, k3]; rfl
          · intro p hp
            rw [List.mem_cons] at hp
            rcases hp with rfl | hp
            · exact hnew
            · intro hk; exact k4 p hp (by rw [hkeys]; simp [hk])
          · exact List.nodup_cons.2 ⟨fun hm => k4 _ hm (by rw [hkeys]; simp), k5⟩
          · rw [k6, hkeys, List.append_assoc]; rfl

theorem trees_renamed (e : Env) (hcc : e.cc.Ok) (hsees : ∀ T p, p ∈ keys T → p ∈ e.comp T) (qs : List Str) (hq : Names qs) (T : Nodes) :
    (ts : List NodeTree) → ∀ T' made, addTrees e true T (render qs) ts = some (T', made) →
    ∃ ts', LikeTrees ts ts' ∧ (∀ r ∈ treesRows qs ts', Names r.1) ∧ made = (treesRows qs ts').map (fun r => render r.1) ∧
      (∀ p ∈ made, p ∉ keys T) ∧ made.Nodup ∧ keys T' = keys T ++ made
  | [], T', made, h => by
    rw [addTrees] at h
    cases h
    exact ⟨[], by rw [LikeTrees], by rw [treesRows]; exact nofun, by rw [treesRows]; rfl, nofun, List.nodup_nil, by simp⟩
  | t :: ts, T', made, h => by
    rw [addTrees] at h
    cases ha : addTree e true T (render qs) t with
    | none => rw [ha] at h; cases h
    | some res =>
      obtain ⟨T1, m1⟩ := res
      rw [ha] at h
      simp only at h
      cases hb : addTrees e true T1 (render qs) ts with
      | none => rw [hb] at h; cases h
      | some res =>
        obtain ⟨T2, m2⟩ := res
        rw [hb] at h
        simp only [Option.some.injEq, Prod.mk.injEq] at h
        obtain ⟨rfl, rfl⟩ := h
        obtain ⟨t', a1, a2, a3, a4, a5, a6⟩ := tree_renamed e hcc hsees qs hq T t T1 m1 ha
        obtain ⟨ts', b1, b2, b3, b4, b5, b6⟩ := trees_renamed e hcc hsees qs hq T1 ts T2 m2 hb
        refine ⟨t' :: ts', ?_, ?_, ?_, ?_, ?_, ?_⟩
        · rw [LikeTrees]; exact ⟨t', ts', rfl, a1, b1⟩
        · intro r hr
          rw [treesRows, List.mem_append] at hr
          rcases hr with hr | hr
          · exact a2 r hr
          · exact b2 r hr
        · rw [treesRows, List.map_append, a3, b3]
        · intro p hp
          rw [List.mem_append] at hp
          rcases hp with hp | hp
          · exact a4 p hp
          · intro hk; exact b4 p hp (by rw [a6]; simp [hk])
        · refine List.nodup_append.2 ⟨a5, b5, fun a ha b hb hab => ?_⟩
          exact b4 b hb (by rw [a6, ← hab]; simp [ha])
        · rw [b6, a6, List.append_assoc]

end

mutual

theorem tree_given (e : Env) : (t : NodeTree) → ∀ T parent, (addTree e false T parent t).isSome = true → AllGiven t
  | .node name d ks, T, parent, h => by
    rw [addTree] at h
    rw [AllGiven]
    cases name with
    | none => cases h
    | some x =>
      refine ⟨nofun, ?_⟩
      rw [show nameFor e false T parent (some x) = some x from rfl] at h
      simp only at h
      split at h
      · cases h
      · split at h
        · cases h
        · rename_i ha; exact trees_given e ks _ _ (by rw [ha]; rfl)

theorem trees_given (e : Env) : (ts : List NodeTree) → ∀ T parent, (addTrees e false T parent ts).isSome = true → EachGiven ts
  | [], _, _, _ => by rw [EachGiven]; trivial
  | t :: ts, T, parent, h => by
    rw [addTrees] at h
    rw [EachGiven]
    split at h
    · cases h
    · rename_i ha
      split at h
      · cases h
      · rename_i hb
        exact ⟨tree_given e t _ _ (by rw [ha]; rfl), trees_given e ts _ _ (by rw [hb]; rfl)⟩

end

end Tree

/-- C154: nodes are added with the data of their children.  The names are proper, kept by the naming rules when names
are made, and distinct among the children of one node; nothing of the layer is at one of the paths asked for, and as
long as only such nodes are added the composition shows no others there.  Then exactly the nodes asked for are added, at
their paths, each before those below it, which is also the order in which they are reported.  Each is the node which a
file with that data would give, with its children listed behind those which its data lists; the parent lists the new node;
nothing else changes. -/
theorem C154_tree_partial (e : Env) (fix : Bool) (T : Nodes) (ho : OrdersOk T) (qs : List Str) (hq : Names qs) (t : NodeTree)
    (ht : TreeNamed e.cc fix t) (hnew : ∀ r ∈ treeRows qs t, render r.1 ∉ keys T)
    (hcomp : fix = true → ∀ T1, (∀ p ∈ keys T1, p ∈ keys T ∨ ∃ r ∈ treeRows qs t, p = render r.1) →
      ∀ r ∈ treeRows qs t, render r.1 ∈ e.comp T1 → render r.1 ∈ keys T1)
    (hload : ∀ r ∈ treeRows qs t, (constructNode e.real (render r.1) r.2.1).isSome = true) :
    ∃ T', addTree e fix T (render qs) t = some (T', (treeRows qs t).map (fun r => render r.1)) ∧
      ((treeRows qs t).map (fun r => render r.1)).Nodup ∧
      keys T' = keys T ++ (treeRows qs t).map (fun r => render r.1) ∧
      (∀ q ∈ keys T, q ≠ render qs → get? q T' = get? q T) ∧
      (∀ n, get? (render qs) T = some n → ∃ n', get? (render qs) T' = some n' ∧ WithChildren [treeName t] n n') ∧
      (∀ r ∈ treeRows qs t, ∃ n n', constructNode e.real (render r.1) r.2.1 = some n ∧ get? (render r.1) T' = some n' ∧
        WithChildren r.2.2 n n') := by
  obtain ⟨T', a1, p⟩ := Tree.tree_post e fix (keys T ++ (treeRows qs t).map (fun r => render r.1)) qs hq T t ht {
    orders := ho
    old := fun p hp => List.mem_append_left _ hp
    new := hnew
    known := fun r hr => List.mem_append_right _ (List.mem_map.2 ⟨r, hr, rfl⟩)
    comp := fun hf T1 h1 => hcomp hf T1 (fun p hp => by
      have := h1 p hp
      rw [List.mem_append, List.mem_map] at this
      rcases this with h | ⟨r, hr, rfl⟩
      · exact .inl h
      · exact .inr ⟨r, hr, rfl⟩)
    load := hload }
  exact ⟨T', a1, Tree.rows_nodup e.cc fix qs hq t ht, p.keys, p.rest, p.parent, p.rows⟩

/-- C154: whatever names the data has and whatever the composition shows besides the nodes of the layer: when names are
made and the nodes are added, then as the same tree with proper names, at paths which are new, and nothing else is added. -/
theorem C154_renamed (e : Env) (hcc : e.cc.Ok) (hsees : ∀ T p, p ∈ keys T → p ∈ e.comp T) (qs : List Str) (hq : Names qs)
    (T T' : Nodes) (t : NodeTree) (made : List Str) (h : addTree e true T (render qs) t = some (T', made)) :
    ∃ t', LikeTree t t' ∧ (∀ r ∈ treeRows qs t', Names r.1) ∧ made = (treeRows qs t').map (fun r => render r.1) ∧
      (∀ p ∈ made, p ∉ keys T) ∧ made.Nodup ∧ keys T' = keys T ++ made :=
  Tree.tree_renamed e hcc hsees qs hq T t T' made h

/-- C154: when names are not made, a name missing anywhere in the tree raises. -/
theorem C154_unnamed (e : Env) (T : Nodes) (parent : Str) (t : NodeTree) (h : ¬ AllGiven t) :
    addTree e false T parent t = none := by
  cases ha : addTree e false T parent t with
  | none => rfl
  | some r => exact absurd (Tree.tree_given e t T parent (by rw [ha]; rfl)) h

/-- A tree of four nodes; one has no name. -/
def exTree : NodeTree := .node (some "a".toList) [] [.node (some "b".toList) [] [.node none [] []], .node (some "c".toList) [] []]

/-- Two children of one name. -/
def exTwins : NodeTree := .node (some "a".toList) [] [.node (some "b".toList) [] [], .node (some "b".toList) [("enabled".toList, .bool false)] []]

/-- An environment whose composition has just the nodes of the layer. -/
def exTreeEnv : Env := ⟨asciiClass, keys, [], none, 20⟩

/-- The tree and the layer meet the hypotheses, and what is made of it. -/
example : OrdersOk dupPair ∧ Names ["a".toList, "x".toList] ∧ TreeNamed asciiClass true exTree ∧
    (∀ r ∈ treeRows ["a".toList, "x".toList] exTree, render r.1 ∉ keys dupPair) ∧
    (∀ r ∈ treeRows ["a".toList, "x".toList] exTree, (constructNode none (render r.1) r.2.1).isSome = true) ∧
    (addTree exTreeEnv true dupPair "/a/x".toList exTree).map (fun r => (keys r.1, r.2)) =
      some (["/a", "/a/x", "/a/x/a", "/a/x/a/b", "/a/x/a/b/node", "/a/x/a/c"].map String.toList,
        ["/a/x/a", "/a/x/a/b", "/a/x/a/b/node", "/a/x/a/c"].map String.toList) := by
  refine ⟨fun p n h => ?_, by decide +kernel, ?_, by decide +kernel, by decide +kernel, by decide +kernel⟩
  · have hm := mem_of_get? h
    have hl : dupPair = [dupNode "/a" .none ["x"], dupNode "/a/x" .none []] := rfl
    rw [hl, List.mem_cons, List.mem_singleton] at hm
    rcases hm with hm | hm <;> cases hm
    · exact ⟨[['x']], rfl, by decide⟩
    · exact ⟨[], rfl, by decide⟩
  · simp only [exTree, TreeNamed, TreesNamed, NameKept]
    have hk : ∀ c : Char, asciiClass.isDigit c = false → asciiClass.isWord c = true → KeptName asciiClass [c] := fun c h1 h2 =>
      ⟨⟨c, [], rfl, h1⟩, by simpa using h2, by simp⟩
    refine ⟨⟨by decide, fun _ => hk 'a' (by decide) (by decide)⟩, ⟨⟨by decide, fun _ => hk 'b' (by decide) (by decide)⟩,
      ⟨⟨trivial, trivial⟩, by simp, trivial⟩⟩, by decide, ⟨⟨by decide, fun _ => hk 'c' (by decide) (by decide)⟩, trivial⟩, by simp, trivial⟩

/-- The tree has a node without a name. -/
example : ¬ AllGiven exTree := by simp [exTree, AllGiven, EachGiven]

/-- Two children of one name: the second gets another one. -/
example : (addTree exTreeEnv true [] "/".toList exTwins).map Prod.snd =
    some (["/a", "/a/b", "/a/b2"].map String.toList) := by decide +kernel

/-- C154 violated without names being made: two children of one name are reported, but the layer keeps only the second. -/
theorem C154_twins_violation :
    (addTree exTreeEnv false [] "/".toList exTwins).map (fun r => (keys r.1, r.2)) =
      some (["/a", "/a/b"].map String.toList, ["/a", "/a/b", "/a/b"].map String.toList) := by decide +kernel

/-- C154 violated without names being made: a node which is there is replaced by the new one; the nodes below it stay. -/
theorem C154_replaced_violation :
    (addTree exTreeEnv false dupPair "/".toList exTwins).map (fun r => (keys r.1, r.2)) =
      some (["/a", "/a/x", "/a/b"].map String.toList, ["/a", "/a/b", "/a/b"].map String.toList) := by decide +kernel

end Nxt.Props
