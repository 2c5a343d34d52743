import Verif.Lemmas.Children
/-!
# Properties C46, C47: children and descendants
-/
namespace Nxt.Props
open Dict Tree Spec Path

/-! ## C46 -/

/-- C46: without implied children the result is exactly the nodes directly below the path, each once. -/
theorem C46_children (nodes : Nodes) (kids : Str → Nodes) (T : TreeOk nodes) (K : KidsOk nodes kids) (p : Str) :
    (childPaths nodes (kids p) p false).Nodup ∧ (∀ q, q ∈ childPaths nodes (kids p) p false ↔ IsChild nodes p q) ∧
    (hasChildren nodes (kids p) p false = true ↔ ∃ q, IsChild nodes p q) := by
  obtain ⟨h1, h2⟩ := childPaths_real T K p
  refine ⟨h1, h2, ?_⟩
  unfold hasChildren
  rw [Bool.not_eq_true', ← Bool.not_eq_true, List.isEmpty_iff]
  constructor
  · intro h
    obtain ⟨q, hq⟩ := List.exists_mem_of_ne_nil _ h
    exact ⟨q, (h2 q).1 hq⟩
  · rintro ⟨q, hq⟩ h
    have := (h2 q).2 hq
    rw [h] at this; cases this

/-- C46: when strings are unique objects, scanning finds the real children. -/
theorem C46_scan (nodes : Nodes) (same : Str → Str → Bool) (hs : ∀ a b, same a b = true ↔ a = b) :
    KidsOk nodes (scan same nodes) := by
  intro p _
  unfold scan
  have : (fun e : Str × LNode => same e.2.parent p) = fun e => decide (e.2.parent = p) := by
    funext e
    rw [Bool.eq_iff_iff, hs]
    simp
  rw [this]

/-- C46 with implied children, the world left out (`C46_world_violation`): one path for every name
directly below the path which is a node or on the way to one. -/
theorem C46_implied_partial (nodes : Nodes) (kids : Str → Nodes) (T : TreeOk nodes) (K : KidsOk nodes kids)
    (ms : List Str) (hm : Names ms) (h0 : ms ≠ []) :
    (childPaths nodes (kids (render ms)) (render ms) true).Nodup ∧
    ∀ q, q ∈ childPaths nodes (kids (render ms)) (render ms) true ↔ IsImplied nodes (render ms) q := by
  obtain ⟨h1, h2⟩ := childPaths_implied T K ms hm
  exact ⟨h1, fun q => by rw [h2]; simp [h0]⟩

/-- C46: a layer with a world node reports the world as an implied child of itself; all else is right. -/
theorem C46_world_violation (nodes : Nodes) (kids : Str → Nodes) (T : TreeOk nodes) (K : KidsOk nodes kids) :
    (['/'] ∈ childPaths nodes (kids ['/']) ['/'] true ↔ ['/'] ∈ keys nodes) ∧
    ∀ q, q ≠ ['/'] → (q ∈ childPaths nodes (kids ['/']) ['/'] true ↔ IsImplied nodes ['/'] q) := by
  obtain ⟨h1, h2⟩ := childPaths_implied T K [] names_nil
  have hr : render [] = ['/'] := rfl
  rw [hr] at h2
  refine ⟨?_, fun q hq => ?_⟩
  · rw [h2]
    constructor
    · rintro (⟨ns, x, rest, a, -, b, -⟩ | h)
      · have := (render_eq_world (names_append.1 a).1).1 b.symm
        simp at this
      · exact h.2.2
    · intro h; exact .inr ⟨rfl, rfl, h⟩
  · rw [h2]; simp [hq]

/-- C46, ordered: the same paths; those named by the child order come first and in its order, the others
follow as they were. -/
theorem C46_ordered (nodes : Nodes) (kids : Str → Nodes) (T : TreeOk nodes) (K : KidsOk nodes kids)
    (ms : List Str) (hm : Names ms) (h0 : ms ≠ []) (incl : Bool) (co : List Str) (hco : co.Nodup)
    (ho : ∀ n, get? (render ms) nodes = some n → n.childOrder = co)
    (hn : render ms ∉ keys nodes → incl = true ∧ co = []) :
    ∃ r, orderedPaths nodes (kids (render ms)) (render ms) incl = some r ∧ r.Nodup ∧
      (∀ q, q ∈ r ↔ q ∈ childPaths nodes (kids (render ms)) (render ms) incl) ∧
      ∃ listed, r = listed ++ (childPaths nodes (kids (render ms)) (render ms) incl).filter (fun q => nodeName q ∉ co) ∧
        listed.map nodeName =
          co.filter (· ∈ (childPaths nodes (kids (render ms)) (render ms) incl).map nodeName) := by
  have hor : orderOf nodes (render ms) incl = some co := by
    unfold orderOf
    cases hg : get? (render ms) nodes with
    | some n => simp only; rw [ho n hg]
    | none =>
      obtain ⟨h1, h2⟩ := hn (get?_eq_none.1 hg)
      rw [h1, h2]
      rfl
  have hc : (childPaths nodes (kids (render ms)) (render ms) incl).Nodup ∧
      ∀ q ∈ childPaths nodes (kids (render ms)) (render ms) incl, IsImplied nodes (render ms) q := by
    cases incl with
    | false =>
      obtain ⟨h1, h2⟩ := childPaths_real T K (render ms)
      exact ⟨h1, fun q hq => isImplied_of_isChild ((h2 q).1 hq)⟩
    | true =>
      obtain ⟨h1, h2⟩ := C46_implied_partial nodes kids T K ms hm h0
      exact ⟨h1, fun q hq => (h2 q).1 hq⟩
  obtain ⟨s1, s2, s3⟩ := orderPaths_spec hco hc.1 (fun a ha b hb h => nodeName_inj (hc.2 a ha) (hc.2 b hb) h)
  refine ⟨_, ?_, s1, s2, s3⟩
  unfold orderedPaths
  rw [if_neg (render_ne_empty ms), hor]
  rfl

/-- C46: asking for the ordered children of a path without a node fails unless implied nodes are included. -/
theorem C46_missing_node (nodes rc : Nodes) (p : Str) (hp : p ≠ []) (h : p ∉ keys nodes) :
    orderedPaths nodes rc p false = none := by
  unfold orderedPaths orderOf
  rw [if_neg hp, get?_eq_none.2 h]
  rfl

/-- C46: ordered nodes come in the order of their ordered paths, when strings are unique objects. -/
theorem C46_ordered_nodes (same : Str → Str → Bool) (hs : ∀ a b, same a b = true ↔ a = b) (co : List Str) (rc : Nodes)
    (hn : ∀ e ∈ rc, e.2.name = nodeName e.1) :
    (orderNodes same co rc).map (fun e => e.1) = orderPaths co (rc.map (fun e => e.1)) ∧
    ∀ e ∈ orderNodes same co rc, e ∈ rc := by
  have key : ∀ (l acc : Nodes), (l.foldl (fun acc e => if e.1 ∈ keys acc then acc else acc ++ [e]) acc).map (fun e => e.1) =
      addMissing (acc.map (fun e => e.1)) (l.map (fun e => e.1)) ∧
      ∀ e ∈ l.foldl (fun acc e => if e.1 ∈ keys acc then acc else acc ++ [e]) acc, e ∈ acc ∨ e ∈ l := by
    intro l
    induction l with
    | nil => intro acc; exact ⟨rfl, fun e he => .inl he⟩
    | cons e l ih =>
      intro acc
      have hk : keys acc = acc.map (fun e => e.1) := rfl
      rw [List.foldl_cons]
      unfold addMissing
      rw [List.map_cons, List.foldl_cons, ← hk]
      by_cases h : e.1 ∈ keys acc
      · rw [if_pos h, if_pos h]
        exact ⟨(ih acc).1, fun x hx => ((ih acc).2 x hx).imp id (List.mem_cons_of_mem _)⟩
      · rw [if_neg h, if_neg h]
        refine ⟨by rw [(ih _).1]; unfold addMissing; simp [hk], fun x hx => ?_⟩
        rcases (ih _).2 x hx with hx | hx
        · rcases List.mem_append.1 hx with hx | hx
          · exact .inl hx
          · rw [List.mem_singleton] at hx; exact .inr (hx ▸ List.mem_cons_self)
        · exact .inr (List.mem_cons_of_mem _ hx)
  unfold orderNodes orderPaths
  by_cases h0 : co = []
  · rw [if_pos h0, if_pos h0]; exact ⟨rfl, fun _ h => h⟩
  · rw [if_neg h0, if_neg h0]
    refine ⟨?_, fun e he => ?_⟩
    · rw [(key _ _).1]
      congr 1
      induction co with
      | nil => rfl
      | cons c co ih =>
        have : (rc.filter (fun e => same e.2.name c)).map (fun e => e.1) =
            (rc.map (fun e => e.1)).filter (fun p => nodeName p = c) := by
          rw [List.filter_map]
          congr 1
          apply List.filter_congr
          intro e he
          rw [Bool.eq_iff_iff, hs, hn e he]
          simp
        rw [List.flatMap_cons, List.map_append, this, List.flatMap_cons]
        congr 1
        by_cases h1 : co = []
        · subst h1; rfl
        · exact ih h1
    · rcases (key _ _).2 e he with h | h
      · obtain ⟨c, -, hc⟩ := List.mem_flatMap.1 h
        exact (List.mem_filter.1 hc).1
      · exact h

/-- Two children, the second named first. -/
example : (orderNodes (fun a b => a == b) ["c".toList]
    [("/a/b".toList, ⟨"b".toList, "/a".toList, [], .none, .none⟩),
     ("/a/c".toList, ⟨"c".toList, "/a".toList, [], .none, .none⟩)]).map (fun e => e.1) =
    ["/a/c".toList, "/a/b".toList] := by decide +kernel

/-- C46 fails for ordered node tables: all children are listed once more after the ordered ones. -/
theorem C46_table_violation (co : List Str) (rc : Nodes) (e : Str × LNode) (he : e ∈ rc)
    (hc : nodeName e.1 ∈ co) : ¬ (orderTable co rc).Nodup ∧
      (orderTable co rc).length > rc.length := by
  have h0 : co ≠ [] := by rintro rfl; cases hc
  unfold orderTable
  rw [if_neg h0]
  have hm : e ∈ co.flatMap (fun c => rc.filter (fun e => Path.nodeName e.1 = c)) :=
    List.mem_flatMap.2 ⟨_, hc, List.mem_filter.2 ⟨he, by simp⟩⟩
  constructor
  · intro h
    rw [List.nodup_append] at h
    exact h.2.2 e hm e he rfl
  · rw [List.length_append]
    have := List.length_pos_of_mem hm
    omega

/-- C46 fails when equal strings are different objects: the scan compares parent paths by identity.  Here
only texts of one character are unique objects, as in CPython for texts made at run time. -/
theorem C46_identity_violation :
    let nodes : Nodes := [("/a".toList, ⟨"a".toList, "/".toList, [], .none, .none⟩),
      ("/a/b".toList, ⟨"b".toList, "/a".toList, [], .none, .none⟩)]
    let same : Str → Str → Bool := fun a b => a == b && a.length ≤ 1
    childPaths nodes (scan same nodes "/a".toList) "/a".toList false = [] ∧
    childPaths nodes (scan same nodes "/".toList) "/".toList false = ["/a".toList] := by decide +kernel

/-- A layer with a missing node `/a/c`. -/
def treeSample : Nodes := [("/a".toList, ⟨"a".toList, "/".toList, ["d".toList, "b".toList], .none, .none⟩),
  ("/a/b".toList, ⟨"b".toList, "/a".toList, [], .none, .none⟩),
  ("/a/c/x".toList, ⟨"x".toList, "/a/c".toList, [], .none, .none⟩),
  ("/a/d".toList, ⟨"d".toList, "/a".toList, [], .none, .none⟩)]

theorem treeSample_ok : TreeOk treeSample where
  ok := by decide +kernel
  node := by
    intro q n h
    refine .inr ?_
    simp only [treeSample, List.mem_cons, Prod.mk.injEq, List.not_mem_nil, or_false] at h
    rcases h with ⟨rfl, rfl⟩ | ⟨rfl, rfl⟩ | ⟨rfl, rfl⟩ | ⟨rfl, rfl⟩
    · exact ⟨[], "a".toList, by decide +kernel⟩
    · exact ⟨["a".toList], "b".toList, by decide +kernel⟩
    · exact ⟨["a".toList, "c".toList], "x".toList, by decide +kernel⟩
    · exact ⟨["a".toList], "d".toList, by decide +kernel⟩
  order := by
    intro q n h
    simp only [treeSample, List.mem_cons, Prod.mk.injEq, List.not_mem_nil, or_false] at h
    rcases h with ⟨-, rfl⟩ | ⟨-, rfl⟩ | ⟨-, rfl⟩ | ⟨-, rfl⟩ <;> decide +kernel

example : let same : Str → Str → Bool := fun a b => a == b
    childPaths treeSample (scan same treeSample "/a".toList) "/a".toList false = ["/a/b".toList, "/a/d".toList] ∧
    childPaths treeSample (scan same treeSample "/a".toList) "/a".toList true =
      ["/a/b".toList, "/a/d".toList, "/a/c".toList] ∧
    orderedPaths treeSample (scan same treeSample "/a".toList) "/a".toList true =
      some ["/a/d".toList, "/a/b".toList, "/a/c".toList] := by decide +kernel

/-! ## C47 -/

/-- The child function of a query on a path which is not the world. -/
theorem forest_children (nodes : Nodes) (kids : Str → Nodes) (T : TreeOk nodes) (K : KidsOk nodes kids)
    (incl : Bool) (D : Nat) (hD : ∀ q ∈ keys nodes, pathDepth q ≤ D) :
    Forest (fun p => childPaths nodes (kids p) p incl) Proper pathDepth D := by
  apply forest_of hD
  · rintro p ⟨ns, h1, h2, rfl⟩
    cases incl with
    | false => exact (childPaths_real T K _).1
    | true => exact (C46_implied_partial nodes kids T K ns h1 h2).1
  · rintro p q ⟨ns, h1, h2, rfl⟩ hq
    cases incl with
    | false => exact isImplied_of_isChild (((childPaths_real T K _).2 q).1 hq)
    | true => exact ((C46_implied_partial nodes kids T K ns h1 h2).2 q).1 hq

theorem below_children (nodes : Nodes) (kids : Str → Nodes) (T : TreeOk nodes) (K : KidsOk nodes kids)
    (incl : Bool) (p : Str) (hp : Proper p) (q : Str) :
    BelowCh (fun p => childPaths nodes (kids p) p incl) p q ↔
      if incl then IsImpliedDescendant nodes p q else IsDescendant nodes p q := by
  cases incl with
  | false =>
    simp only [Bool.false_eq_true, if_false]
    rw [← below_isChild]
    apply below_congr hp
    · intro a b _; exact (childPaths_real T K a).2 b
    · rintro a b _ ⟨ns, x, h1, -, h3, -⟩; exact ⟨_, h1, by simp, h3⟩
  | true =>
    simp only [if_true]
    rw [← below_isImplied]
    apply below_congr hp
    · rintro a b ⟨ns, h1, h2, rfl⟩; exact (C46_implied_partial nodes kids T K ns h1 h2).2 b
    · rintro a b _ ⟨ns, x, rest, h1, -, h3, -⟩; exact ⟨_, (names_append.1 h1).1, by simp, h3⟩

/-- C47: below a path which is not the world the descendants are exactly the nodes of the tree below it
(those with every node between them present; with implied nodes, all paths on the way to a node), each
once, and the loop stops. -/
theorem C47_descendants (nodes : Nodes) (kids : Str → Nodes) (T : TreeOk nodes) (K : KidsOk nodes kids)
    (incl : Bool) (ns : List Str) (hn : Names ns) (h0 : ns ≠ []) :
    ∃ N, ∀ fuel ≥ N, ∃ r, descendants nodes kids incl fuel (render ns) = some r ∧ r.Nodup ∧
      ∀ q, q ∈ r ↔ if incl then IsImpliedDescendant nodes (render ns) q else IsDescendant nodes (render ns) q := by
  obtain ⟨D, hD⟩ := exists_bound (keys nodes)
  have F := forest_children nodes kids T K incl D hD
  have hp : Proper (render ns) := ⟨ns, hn, h0, rfl⟩
  refine ⟨D + 2, fun fuel hf => ?_⟩
  have hw : render ns ≠ WORLD := fun h => h0 ((render_eq_world hn).1 h)
  have hd0 : ∀ q, q ∈ childPaths nodes (kids (render ns)) (render ns) incl ↔
      BelowCh (fun p => childPaths nodes (kids p) p incl) (render ns) q ∧ pathDepth q = pathDepth (render ns) + 1 := by
    intro q
    constructor
    · intro hq; exact ⟨.one hq, F.succ _ _ hp hq⟩
    · rintro ⟨hb, hd⟩
      cases hb with
      | one h => exact h
      | step h h' =>
        have d1 := below_dom F hp h
        have := F.succ _ _ d1.1 h'
        omega
  obtain ⟨r, h1, h2, h3⟩ := descLoop_spec F (render ns) hp fuel (pathDepth (render ns) + 1) _ _ (by omega) (by omega)
    (F.nodup _ hp) (F.nodup _ hp) (fun q => by
      rw [hd0]
      constructor
      · rintro ⟨h, h'⟩; exact ⟨h, by omega⟩
      · rintro ⟨h, h'⟩
        have := below_dom F hp h
        exact ⟨h, by omega⟩) hd0
  refine ⟨r, ?_, h2, fun q => ?_⟩
  · unfold descendants
    rw [if_neg hw]
    exact h1
  · rw [h3, below_children nodes kids T K incl _ hp]

/-- C47: the descendants of the world are all nodes but the world itself; with implied nodes, all paths
on the way to one of them. -/
theorem C47_world (nodes : Nodes) (kids : Str → Nodes) (T : TreeOk nodes) (fuel : Nat) (incl : Bool) :
    ∃ r, descendants nodes kids incl fuel ['/'] = some r ∧ r.Nodup ∧
      ∀ q, q ∈ r ↔ if incl then IsImpliedDescendant nodes ['/'] q else q ∈ keys nodes ∧ q ≠ ['/'] := by
  refine ⟨worldDescendants nodes incl, if_pos rfl, ?_⟩
  have hk : (keys nodes).Nodup := T.ok
  have hW : WORLD = ['/'] := rfl
  have hme : ∀ q, q ∈ (keys nodes).erase WORLD ↔ q ∈ keys nodes ∧ q ≠ ['/'] := by
    intro q
    rw [hk.mem_erase_iff, hW]
    exact And.comm
  unfold worldDescendants
  cases incl with
  | false =>
    simp only [Bool.false_eq_true, if_false]
    exact ⟨hk.erase _, hme⟩
  | true =>
    simp only [if_true]
    obtain ⟨s1, s2, -⟩ := addMissing_spec
      ((((keys nodes).erase WORLD).flatMap Path.allAncestorPaths).filter (· ≠ WORLD) ++ (keys nodes).erase WORLD)
      [] List.nodup_nil
    refine ⟨s1, fun q => ?_⟩
    rw [s2]
    simp only [List.not_mem_nil, false_or, List.mem_append]
    constructor
    · rintro (h | h)
      · obtain ⟨h1, h2⟩ := List.mem_filter.1 h
        obtain ⟨k, hk1, hk2⟩ := List.mem_flatMap.1 h1
        obtain ⟨hk3, -⟩ := (hme k).1 hk1
        obtain ⟨ns, hns, rfl⟩ := keys_shape T hk3
        obtain ⟨ms, rest, m1, m2, m3, rfl⟩ := (C10_ancestors_mem ns hns q).1 hk2
        subst m3
        exact ⟨[], ms, rest, by simpa using hns, m1, rfl, by simp, by simpa using hk3⟩
      · obtain ⟨h1, h2⟩ := (hme q).1 h
        obtain ⟨ns, hns, rfl⟩ := keys_shape T h1
        refine ⟨[], ns, [], by simpa using hns, ?_, rfl, by simp, by simpa using h1⟩
        rintro rfl; exact h2 rfl
    · rintro ⟨ns, rest, more, h1, h2, h3, rfl, h5⟩
      have hns : ns = [] := (render_eq_world (names_append.1 (names_append.1 h1).1).1).1 h3.symm
      subst hns
      simp only [List.nil_append] at h1 h5 ⊢
      have hne : ∀ m, Names m → m ≠ [] → render m ≠ ['/'] := fun m hm h0 h => h0 ((render_eq_world hm).1 h)
      by_cases hm : more = []
      · subst hm
        rw [List.append_nil] at h1 h5
        exact .inr ((hme _).2 ⟨h5, hne _ h1 h2⟩)
      · refine .inl (List.mem_filter.2 ⟨List.mem_flatMap.2 ⟨_, (hme _).2 ⟨h5, hne _ h1 (by simp [h2])⟩, ?_⟩, ?_⟩)
        · exact (C10_ancestors_mem _ h1 _).2 ⟨rest, more, h2, hm, rfl, rfl⟩
        · simpa [hW] using hne _ (names_append.1 h1).1 h2

/-- C47, ordered: for a node of the layer which is not the world, the listing has exactly the
descendants, each once; every node follows its parent, directly followed by its own listing; and the
children of each node come in the order `children` gives. -/
theorem C47_ordered (nodes : Nodes) (kids : Str → Nodes) (T : TreeOk nodes) (K : KidsOk nodes kids)
    (ns : List Str) (hn : Names ns) (h0 : ns ≠ []) (hk : render ns ∈ keys nodes) :
    ∃ N, ∀ fuel ≥ N, ∃ r, descendantsOrdered nodes kids false fuel (render ns) = some r ∧ r.Nodup ∧
      (∀ q, q ∈ r ↔ IsDescendant nodes (render ns) q) ∧
      (∀ A q B, r = A ++ q :: B → parentPath q = render ns ∨ parentPath q ∈ A) ∧
      (∀ x, x = render ns ∨ x ∈ r → ∃ cs, orderedPaths nodes (kids x) x false = some cs ∧
        r.filter (fun q => parentPath q = x) = cs) ∧
      (∀ q ∈ r, ∃ A s B, descendantsOrdered nodes kids false fuel q = some s ∧ r = A ++ (q :: s) ++ B) := by
  obtain ⟨D, hD⟩ := exists_bound (keys nodes)
  have hord : ∀ p, p ∈ keys nodes → Proper p → ∃ r, orderedPaths nodes (kids p) p false = some r ∧ r.Nodup ∧
      ∀ q, q ∈ r ↔ IsChild nodes p q := by
    rintro p hp ⟨ms, hm, hm0, rfl⟩
    obtain ⟨n, hg⟩ := Option.isSome_iff_exists.1 (get?_isSome.2 hp)
    obtain ⟨r, h1, h2, h3, -⟩ := C46_ordered nodes kids T K ms hm hm0 false n.childOrder
      (T.order _ n (mem_of_get? hg)) (fun m hm' => by rw [hg] at hm'; cases hm'; rfl) (fun h => absurd hp h)
    exact ⟨r, h1, h2, fun q => by rw [h3, (childPaths_real T K _).2]⟩
  let ch : Str → List Str := fun p =>
    if p ∈ keys nodes then (orderedPaths nodes (kids p) p false).getD [] else []
  have hch : ∀ p, Proper p → (ch p).Nodup ∧ ∀ q, q ∈ ch p ↔ p ∈ keys nodes ∧ IsChild nodes p q := by
    intro p hp
    by_cases hpk : p ∈ keys nodes
    · obtain ⟨r, h1, h2, h3⟩ := hord p hpk hp
      have e : ch p = r := by simp only [ch]; rw [if_pos hpk, h1]; rfl
      rw [e]
      exact ⟨h2, fun q => by rw [h3]; simp [hpk]⟩
    · have e : ch p = [] := by simp only [ch]; rw [if_neg hpk]
      rw [e]
      exact ⟨List.nodup_nil, fun q => by simp [hpk]⟩
  have F : Forest ch Proper pathDepth D := by
    apply forest_of hD
    · exact fun p hp => (hch p hp).1
    · intro p q hp hq; exact isImplied_of_isChild (((hch p hp).2 q).1 hq).2
  have hp : Proper (render ns) := ⟨ns, hn, h0, rfl⟩
  have hbk : ∀ p q, p ∈ keys nodes → Proper p → BelowCh ch p q → q ∈ keys nodes ∧ Proper q := by
    intro p q hpk hpp h
    induction h with
    | one h =>
      obtain ⟨-, a, x, b1, b2, b3, b4⟩ := ((hch _ hpp).2 _).1 h
      exact ⟨b4, ⟨_, b1, by simp, b3⟩⟩
    | step _ h ih =>
      obtain ⟨-, a, x, b1, b2, b3, b4⟩ := ((hch _ ih.2).2 _).1 h
      exact ⟨b4, ⟨_, b1, by simp, b3⟩⟩
  have hbelow : ∀ p q, p ∈ keys nodes → Proper p → (BelowCh ch p q ↔ IsDescendant nodes p q) := by
    intro p q hpk hpp
    rw [← below_isChild]
    constructor
    · intro h
      have key : ∀ q, BelowCh ch p q → Below (IsChild nodes) p q ∧ Proper q := by
        intro q h
        induction h with
        | one h => exact ⟨.one (((hch _ hpp).2 _).1 h).2, (hbk p _ hpk hpp (.one h)).2⟩
        | step hh h ih => exact ⟨.step ih.1 (((hch _ ih.2).2 _).1 h).2, (hbk p _ hpk hpp (.step hh h)).2⟩
      exact (key q h).1
    · intro h
      have key : ∀ q, Below (IsChild nodes) p q → BelowCh ch p q := by
        intro q h
        induction h with
        | one h => exact .one (((hch _ hpp).2 _).2 ⟨hpk, h⟩)
        | step _ h ih =>
          have := hbk p _ hpk hpp ih
          exact .step ih (((hch _ this.2).2 _).2 ⟨this.1, h⟩)
      exact key q h
  have hoch : ∀ p, p ∈ keys nodes → Proper p → orderedPaths nodes (kids p) p false = some (ch p) := by
    intro p hpk hpp
    obtain ⟨r, h1, -⟩ := hord p hpk hpp
    simp only [ch]
    rw [if_pos hpk, h1]; rfl
  have hdesc : ∀ fuel ≥ D + 1, ∀ p, p ∈ keys nodes → Proper p →
      descendantsOrdered nodes kids false fuel p = some (pre ch fuel p) := by
    intro fuel hf p hpk hpp
    unfold descendantsOrdered
    rw [if_neg]
    · apply orderedDesc_eq F hpp _ (by omega) (by omega)
      rintro q (rfl | hq)
      · exact hoch _ hpk hpp
      · have := hbk p q hpk hpp hq
        exact hoch q this.1 this.2
    · obtain ⟨m, m1, m2, rfl⟩ := hpp
      exact fun h => m2 ((render_eq_world m1).1 h)
  have hpar : ∀ p q, p ∈ keys nodes → Proper p → q ∈ keys nodes → Proper q → (parentPath q = p ↔ q ∈ ch p) := by
    intro p q hpk hpp hqk hqp
    rw [(hch p hpp).2]
    obtain ⟨m, m1, m2, rfl⟩ := hqp
    rcases eq_nil_or_snoc m with rfl | ⟨a, x, rfl⟩
    · exact absurd rfl m2
    · rw [(C09_parent_name_join a x m1).1]
      constructor
      · rintro rfl; exact ⟨hpk, a, x, m1, rfl, rfl, hqk⟩
      · rintro ⟨-, a', x', b1, b2, b3, -⟩
        have := render_inj m1 b1 b3
        rw [(List.append_inj' this rfl).1, b2]
  refine ⟨D + 1, fun fuel hf => ⟨pre ch fuel (render ns), hdesc fuel hf _ hk hp, pre_nodup F hp (by omega), ?_, ?_, ?_, ?_⟩⟩
  · intro q; rw [mem_pre F hp (by omega), hbelow _ q hk hp]
  · intro A q B h
    have hq : BelowCh ch (render ns) q := (mem_pre F hp (f := fuel) (by omega) q).1 (by rw [h]; simp)
    have hq' := hbk _ q hk hp hq
    rcases pre_parent_first F hp (by omega) h with h1 | ⟨x, hx, h1⟩
    · exact .inl ((hpar _ q hk hp hq'.1 hq'.2).2 h1)
    · have hx' : BelowCh ch (render ns) x := (mem_pre F hp (f := fuel) (by omega) x).1 (by rw [h]; simp [hx])
      have hx2 := hbk _ x hk hp hx'
      rw [(hpar x q hx2.1 hx2.2 hq'.1 hq'.2).2 h1]
      exact .inr hx
  · intro x hx
    have hx' : x = render ns ∨ BelowCh ch (render ns) x := hx.imp id (mem_pre F hp (by omega) x).1
    have hx2 : x ∈ keys nodes ∧ Proper x := by
      rcases hx' with rfl | h
      · exact ⟨hk, hp⟩
      · exact hbk _ x hk hp h
    refine ⟨_, hoch x hx2.1 hx2.2, ?_⟩
    have := pre_siblings F hp (f := fuel) (by omega) hx'
    refine Eq.trans ?_ this
    apply List.filter_congr
    intro q hq
    have hq' := hbk _ q hk hp ((mem_pre F hp (by omega) q).1 hq)
    have := hpar x q hx2.1 hx2.2 hq'.1 hq'.2
    simp only [this]
  · intro q hq
    have hqb := (mem_pre F hp (by omega) q).1 hq
    have hq' := hbk _ q hk hp hqb
    obtain ⟨A, B, h⟩ := pre_block F hp (f := fuel) (by omega) hqb
    exact ⟨A, _, B, hdesc fuel hf q hq'.1 hq'.2, h⟩

example : let same : Str → Str → Bool := fun a b => a == b
    descendants treeSample (scan same treeSample) true 5 "/a".toList =
      some ["/a/b".toList, "/a/d".toList, "/a/c".toList, "/a/c/x".toList] ∧
    descendants treeSample (scan same treeSample) false 5 "/a".toList = some ["/a/b".toList, "/a/d".toList] ∧
    descendantsOrdered treeSample (scan same treeSample) false 5 "/a".toList = some ["/a/d".toList, "/a/b".toList] := by
  decide +kernel

end Nxt.Props
