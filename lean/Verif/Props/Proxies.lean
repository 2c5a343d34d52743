import Verif.Lemmas.ProxyLoop
/-!
# C78-C83: the proxies of a composition
-/
namespace Nxt.Props
open Dict Spec Proxies Path

variable {N : List Str → Option (Option Str)}

/-! ## C78 -/

/-- When a node may be an instance of a path: its instance path is not empty and not the world, the path is
not above the node, and does not depend on it. -/
theorem possible_iff {S : St} (hd : Dirty.NodupMap S.dirty) (p r : Str) :
    possible S p = some r ↔ ∃ i, instOf S p = some i ∧ i ≠ [] ∧ i ≠ ['/'] ∧ expandRelative (some i) p = some r ∧
      (∀ t, p ≠ r ++ '/' :: t) ∧ ¬ Reach S.dirty p r := by
  have hs : ∀ r, Py.startsWith p (r ++ [SEP]) = false ↔ ∀ t, p ≠ r ++ '/' :: t := by
    intro r
    rw [← Bool.not_eq_true, Py.startsWith_iff, not_exists]
    refine forall_congr' (fun t => ?_)
    rw [show r ++ [SEP] ++ t = r ++ '/' :: t by simp [SEP]]
  constructor
  · intro h
    obtain ⟨i, h1, h2, h3, h4, h5, h6⟩ := possible_some h
    exact ⟨i, h1, h2, h3, h4, (hs r).1 h5, fun hr => h6 ((mem_dirties hd p r).2 hr)⟩
  · rintro ⟨i, h1, h2, h3, h4, h5, h6⟩
    exact possible_of h1 h2 h3 h4 ((hs r).2 h5) (fun hr => h6 ((mem_dirties hd p r).1 hr))

/-- C78 (partial: the source has a shorter trace, or is not itself an instance of a node): the deep sort keeps
all nodes, and puts an instance after its source.  Missing: sources which are moved after their instance
was, see `C78_deep_violation`. -/
theorem C78_deep_sort_partial (S : St) (h : Ok S.nodes) :
    (deepSort S).Perm (keys S.nodes) ∧
    ∀ p r, possible S p = some r → p ∈ keys S.nodes → r ∈ keys S.nodes → p ≠ r →
      ((trace S r).length < (trace S p).length ∨ ∀ s, possible S r = some s → s ∉ keys S.nodes) →
      [r, p].Sublist (deepSort S) := by
  obtain ⟨h1, h2⟩ := deepSort_spec h
  refine ⟨h1, fun p r hp hk hr hne hor => h2 p r (src?_eq.2 ⟨hp, hr⟩) hne hk (hor.imp id (fun hs => ?_))⟩
  cases he : src? S r with
  | none => rfl
  | some s => exact absurd (src?_eq.1 he).2 (hs s (src?_eq.1 he).1)

/-- C78: when no node is in its own chain of instance paths, every instance whose instance path is the path
of a node comes after that node. -/
theorem C78_absolute (S : St) (h : Ok S.nodes) (hacyc : ∀ n c, Chain (instOf S) n c → n ∉ c) (p r : Str)
    (hi : instOf S p = some r) (hr : r ∈ keys S.nodes) (hp : possible S p = some r) :
    [r, p].Sublist (deepSort S) := by
  have hk : p ∈ keys S.nodes := by
    rw [← get?_isSome]
    unfold instOf at hi
    cases hg : get? p S.nodes with
    | none => rw [hg] at hi; cases hi
    | some n => rfl
  have hlen : (keys S.nodes).length + 1 ≤ S.nodes.length + 1 := by simp [keys]
  obtain ⟨t, e1, e2⟩ := trace_cons (ps := keys S.nodes) hacyc hi hr hlen hlen
  refine (C78_deep_sort_partial S h).2 p r hp hk hr ?_ (.inl ?_)
  · rintro rfl
    exact hacyc p [p] (.cons hi (.nil _)) (by simp)
  · unfold trace
    rw [e1, e2]
    simp

/-- A layer from paths and instance paths. -/
def proxyLayer (l : List (String × Option String)) : St :=
  ⟨l.map (fun e => (e.1.toList, ⟨e.2.map String.toList, [], false⟩)), []⟩

/-- Identity of texts which are the same object whenever they are equal. -/
def sameText : Str → Str → Bool := fun a b => a = b

/-- C78: with relative instance paths an instance comes before its source. -/
theorem C78_deep_violation :
    let S := proxyLayer [("/a", some "../b"), ("/b", some "../c"), ("/c", none)]
    possible S "/a".toList = some "/b".toList ∧ possible S "/b".toList = some "/c".toList ∧
    deepSort S = ["/c".toList, "/a".toList, "/b".toList] := by decide +kernel

/-- The nodes are moved, and the instances of one source keep their order. -/
example : deepSort (proxyLayer [("/i", some "/s"), ("/j", some "/s"), ("/k", some "/j"), ("/m", none), ("/s", none),
      ("/t", none)])
    = ["/m".toList, "/s".toList, "/i".toList, "/j".toList, "/k".toList, "/t".toList] := by decide +kernel

/-! ## C79 -/

/-- The layer after the loop, and the layer after the implied proxies were taken out. -/
theorem compProxies_loop {same : Str → Str → Bool} {kids : List Str → Str → List Str} (hk : GivesKids kids) {fuel : Nat}
    {S R : St} (hs : Start S) (h : compProxies same kids fuel S = some R) :
    ∃ T imp, Good (nodesOf S) T ∧ ImpOk (nodesOf S) (T, imp) ∧
      (∀ q ∈ keys T.nodes, ∃ S', Good (nodesOf S) S' ∧ keys S'.nodes = keys T.nodes ∧ (discover same kids S' q).2 = []) ∧
      ∀ q, get? q R.nodes = if q ∈ imp then none else get? q T.nodes := by
  unfold compProxies at h
  rw [Option.map_eq_some_iff] at h
  obtain ⟨⟨T, imp⟩, h1, rfl⟩ := h
  obtain ⟨g1, g2, g3⟩ := proxyLoop_spec same hk fuel (S, []) T imp (good_start hs) (impOk_start S) h1
  exact ⟨T, imp, g1, g2, g3, (eraseFold imp T g1.ok).2⟩

/-- C79: every node of the composition, and every instance path which means a path, follows from the nodes at
the start; and no node which was there is lost. -/
theorem C79_sound (same : Str → Str → Bool) (kids : List Str → Str → List Str) (hk : GivesKids kids) (fuel : Nat)
    (S R : St) (hs : Start S) (h : compProxies same kids fuel S = some R) :
    (∀ q ∈ keys R.nodes, ∃ p, q = render p ∧ Made (nodesOf S) (.node p)) ∧
    (∀ p i r, Names p → nodesOf R p = some (some i) → PointsTo i p r → Made (nodesOf S) (.inst p r)) ∧
    ∀ p, Names p → nodesOf S p ≠ none → nodesOf R p ≠ none := by
  obtain ⟨T, imp, g1, g2, -, g4⟩ := compProxies_loop hk hs h
  refine ⟨fun q hq => ?_, fun p i r hp hi hr => ?_, fun p hp hN => ?_⟩
  · rw [← get?_isSome, g4] at hq
    split at hq
    · cases hq
    · exact g1.node q (get?_isSome.1 hq)
  · refine g1.inst p i r hp ?_ hr
    unfold nodesOf at hi
    rw [g4] at hi
    split at hi
    · cases hi
    · unfold instOf
      cases hg : get? (render p) T.nodes with
      | none => rw [hg] at hi; cases hi
      | some n => rw [hg] at hi; exact Option.some.inj hi
  · intro hR
    unfold nodesOf at hR
    rw [g4, if_neg] at hR
    · exact (nodesOf_none.1 hR) (g1.init p hp hN)
    · intro hin
      obtain ⟨p', h1, h2, h3⟩ := g2.new _ hin
      rw [← render_inj hp h2 h1] at h3
      exact hN h3

/-- C79: the making of proxies ends when only finitely many nodes follow from the start. -/
theorem C79_ends (same : Str → Str → Bool) (kids : List Str → Str → List Str) (hk : GivesKids kids)
    (S : St) (hs : Start S) (l : List (List Str)) (hl : ∀ p, Made (nodesOf S) (.node p) → p ∈ l) :
    ∀ fuel ≥ l.length + 1, ∃ R, compProxies same kids fuel S = some R := by
  intro fuel hf
  obtain ⟨r, hr⟩ := proxyLoop_ends same hk l hl fuel (S, []) (good_start hs) (impOk_start S) (by omega)
  unfold compProxies
  rw [hr]
  exact ⟨_, rfl⟩

/-- The scan gives the children as required. -/
theorem C79_scan : GivesKids kidPaths := kidPaths_gives

/-! ## C80 -/

/-- C80 (partial: the start must be `Calm`): when the loop ends, the nodes are exactly those which follow from
the start, and each has the instance path which follows, wherever there is something to copy. -/
theorem C80_exact_partial (same : Str → Str → Bool) (kids : List Str → Str → List Str) (hk : GivesKids kids) (fuel : Nat)
    (S T : St) (imp : List Str) (hs : Start S) (C : Calm (nodesOf S))
    (h : proxyLoop same kids fuel (S, []) = some (T, imp)) :
    (∀ q, q ∈ keys T.nodes ↔ ∃ p, q = render p ∧ Made (nodesOf S) (.node p)) ∧
    ∀ p r x rest, Made (nodesOf S) (.node p) → Made (nodesOf S) (.inst p r) → Made (nodesOf S) (.node (r ++ x :: rest)) →
      ∃ i, instOf T (render p) = some i ∧ PointsTo i p r := by
  obtain ⟨g1, -, g3⟩ := proxyLoop_spec same hk fuel (S, []) T imp (good_start hs) (impOk_start S) h
  have hall : ∀ p, Made (nodesOf S) (.node p) → render p ∈ keys T.nodes :=
    fun p hp => closed_calm same hk C hs.world g1 g3 hp p rfl
  refine ⟨fun q => ⟨g1.node q, ?_⟩, fun p r x rest h1 h2 h3 => g1.sure C.toUniq p r x rest (hall p h1) h2 h3⟩
  rintro ⟨p, rfl, hp⟩
  exact hall p hp

/-- C80: a node which overrides a child of its source can be left without the nodes below that child. -/
theorem C80_override_violation :
    let S := proxyLayer [("/", none), ("/x", none), ("/n", some "/x/r"), ("/n/c", none), ("/x/r", none),
      ("/x/r/c", none), ("/x/r/c/d", none)]
    ∃ R, compProxies sameText kidPaths 2 S = some R ∧
      instOf R "/n".toList = some "/x/r".toList ∧ instOf R "/n/c".toList = some "/x/r/c".toList ∧
      "/x/r/c/d".toList ∈ keys R.nodes ∧ "/n/c/d".toList ∉ keys R.nodes := by
  refine ⟨_, rfl, ?_⟩
  decide +kernel

/-- With one more child to copy, the same nodes are complete. -/
example :
    let S := proxyLayer [("/", none), ("/x", none), ("/n", some "/x/r"), ("/n/c", none), ("/x/r", none),
      ("/x/r/c", none), ("/x/r/e", none), ("/x/r/c/d", none)]
    (compProxies sameText kidPaths 3 S).map (fun R => keys R.nodes) =
      some (["/", "/x", "/n", "/n/c", "/x/r", "/x/r/c", "/x/r/e", "/x/r/c/d", "/n/e", "/n/c/d"].map String.toList) := by
  decide +kernel

/-! ## C81 -/

/-- C81: from a calm start with infinitely many nodes which follow, the loop never ends. -/
theorem C81_endless (same : Str → Str → Bool) (kids : List Str → Str → List Str) (hk : GivesKids kids)
    (S : St) (hs : Start S) (C : Calm (nodesOf S)) (hinf : ∀ l : List (List Str), ∃ p, p ∉ l ∧ Made (nodesOf S) (.node p)) :
    ∀ fuel, compProxies same kids fuel S = none := by
  intro fuel
  unfold compProxies
  rw [Option.map_eq_none_iff]
  cases h : proxyLoop same kids fuel (S, []) with
  | none => rfl
  | some r =>
    obtain ⟨p, hp, hm⟩ := hinf ([] :: (keys r.1.nodes).map toNamespace)
    have := ((C80_exact_partial same kids hk fuel S r.1 r.2 hs C h).1 (render p)).2 ⟨p, rfl, hm⟩
    exfalso
    apply hp
    by_cases h0 : p = []
    · rw [h0]; exact List.mem_cons_self
    · refine List.mem_cons_of_mem _ (List.mem_map.2 ⟨_, this, ?_⟩)
      have e := C08_namespace_roundtrip p hm.names h0
      rw [← e.1]; exact e.2

/-- Facts which hold at the start and are kept by copying. -/
theorem made_within (P : Fact → Prop) (h1 : ∀ p i, Names p → N p = some i → P (.node p))
    (h2 : ∀ p i r, Names p → N p = some (some i) → PointsTo i p r → P (.inst p r))
    (h3 : ∀ p r x rest, P (.inst p r) → P (.node p) → P (.node (r ++ x :: rest)) →
      P (.node (p ++ [x])) ∧ P (.inst (p ++ [x]) (r ++ [x]))) {f : Fact} (h : Made N f) : P f := by
  induction h with
  | node g1 g2 => exact h1 _ _ g1 g2
  | inst g1 g2 g3 => exact h2 _ _ _ g1 g2 g3
  | copyNode _ _ _ i1 i2 i3 => exact (h3 _ _ _ _ i1 i2 i3).1
  | copyInst _ _ _ _ i1 i2 i3 => exact (h3 _ _ _ _ i1 i2 i3).2

/-- Two nodes which are instances of each other, one of them below the other. -/
def exNested : St := proxyLayer [("/", none), ("/a", some "/b"), ("/b", none), ("/b/c", some "/a")]

theorem exNested_nodes {p : List Str} {i : Option Str} (hp : Names p) (h : nodesOf exNested p = some i) :
    (p = [] ∧ i = none) ∨ (p = [['a']] ∧ i = some (render [['b']])) ∨ (p = [['b']] ∧ i = none) ∨
    (p = [['b'], ['c']] ∧ i = some (render [['a']])) := by
  unfold nodesOf at h
  rw [Option.map_eq_some_iff] at h
  obtain ⟨n, h1, rfl⟩ := h
  have h2 := mem_of_get? h1
  have h3 : exNested.nodes = [(render [], ⟨none, [], false⟩), (render [['a']], ⟨some (render [['b']]), [], false⟩),
    (render [['b']], ⟨none, [], false⟩), (render [['b'], ['c']], ⟨some (render [['a']]), [], false⟩)] := by decide +kernel
  rw [h3] at h2
  simp only [List.mem_cons, Prod.mk.injEq, List.not_mem_nil, or_false] at h2
  rcases h2 with ⟨e, rfl⟩ | ⟨e, rfl⟩ | ⟨e, rfl⟩ | ⟨e, rfl⟩
  · exact .inl ⟨render_inj hp names_nil e, rfl⟩
  · exact .inr (.inl ⟨render_inj hp (by decide) e, rfl⟩)
  · exact .inr (.inr (.inl ⟨render_inj hp (by decide) e, rfl⟩))
  · exact .inr (.inr (.inr ⟨render_inj hp (by decide) e, rfl⟩))

theorem exNested_start : Start exNested where
  ok := by decide +kernel
  path := by
    intro q hq
    have h3 : keys exNested.nodes = [render [], render [['a']], render [['b']], render [['b'], ['c']]] := by
      decide +kernel
    rw [h3] at hq
    simp only [List.mem_cons, List.not_mem_nil, or_false] at hq
    rcases hq with rfl | rfl | rfl | rfl
    · exact ⟨_, by decide, rfl⟩
    · exact ⟨_, by decide, rfl⟩
    · exact ⟨_, by decide, rfl⟩
    · exact ⟨_, by decide, rfl⟩
  world := by
    intro i hi
    have : nodesOf exNested [] = some none := by decide +kernel
    rw [this] at hi
    cases hi
  dirty := rfl

/-- The facts of the nested instances: `/a/c/c..` takes from `/b/c/c..`, which takes from `/a/c..`. -/
def NestedFact : Fact → Prop
  | .node p => p = [] ∨ ∃ k, p = ['a'] :: List.replicate k ['c'] ∨ p = ['b'] :: List.replicate k ['c']
  | .inst p r => ∃ k, (p = ['a'] :: List.replicate k ['c'] ∧ r = ['b'] :: List.replicate k ['c']) ∨
      (p = ['b'] :: List.replicate (k + 1) ['c'] ∧ r = ['a'] :: List.replicate k ['c'])

theorem replicate_snoc_eq {α : Type} {k m : Nat} {c x : α} {rest : List α}
    (h : List.replicate k c ++ x :: rest = List.replicate m c) : x = c := by
  have : x ∈ List.replicate m c := by rw [← h]; simp
  exact (List.mem_replicate.1 this).2

theorem nested_made {f : Fact} (h : Made (nodesOf exNested) f) : NestedFact f := by
  refine made_within NestedFact ?_ ?_ ?_ h
  · intro p i hp hi
    rcases exNested_nodes hp hi with ⟨rfl, -⟩ | ⟨rfl, -⟩ | ⟨rfl, -⟩ | ⟨rfl, -⟩
    · exact .inl rfl
    · exact .inr ⟨0, .inl rfl⟩
    · exact .inr ⟨0, .inr rfl⟩
    · exact .inr ⟨1, .inr rfl⟩
  · intro p i r hp hi hr
    rcases exNested_nodes hp hi with ⟨rfl, h⟩ | ⟨rfl, h⟩ | ⟨rfl, h⟩ | ⟨rfl, h⟩
    · cases h
    · cases h
      rw [pointsTo_abs (by decide) hr]
      exact ⟨0, .inl ⟨rfl, rfl⟩⟩
    · cases h
    · cases h
      rw [pointsTo_abs (by decide) hr]
      exact ⟨0, .inr ⟨rfl, rfl⟩⟩
  · intro p r x rest h1 h2 h3
    obtain ⟨k, ⟨rfl, rfl⟩ | ⟨rfl, rfl⟩⟩ := h1
    · have hx : x = ['c'] := by
        rcases h3 with h3 | ⟨m, h3 | h3⟩
        · simp at h3
        · simp at h3
        · simp only [List.cons_append, List.cons.injEq, true_and] at h3
          exact replicate_snoc_eq h3
      subst hx
      refine ⟨.inr ⟨k + 1, .inl ?_⟩, k + 1, .inl ⟨?_, ?_⟩⟩ <;> simp [List.replicate_succ']
    · have hx : x = ['c'] := by
        rcases h3 with h3 | ⟨m, h3 | h3⟩
        · simp at h3
        · simp only [List.cons_append, List.cons.injEq, true_and] at h3
          exact replicate_snoc_eq h3
        · simp at h3
      subst hx
      refine ⟨.inr ⟨k + 2, .inr ?_⟩, k + 1, .inr ⟨?_, ?_⟩⟩ <;> simp [List.replicate_succ']

/-- Grows along the instances. -/
def nestedRank : List Str → Nat
  | [] => 0
  | n :: ns => 2 * ns.length + (if n = ['a'] then 1 else 0)

theorem nested_rank {p r : List Str} (h : Made (nodesOf exNested) (.inst p r)) : nestedRank r < nestedRank p := by
  obtain ⟨k, ⟨rfl, rfl⟩ | ⟨rfl, rfl⟩⟩ := nested_made h
  · simp [nestedRank]
  · simp [nestedRank]; omega

theorem nested_feeds {p q : List Str} (h : Feeds (nodesOf exNested) p q) : nestedRank p < nestedRank q := by
  induction h with
  | one h => exact nested_rank h
  | more _ h ih => exact Nat.lt_trans ih (nested_rank h)

theorem exNested_calm : Calm (nodesOf exNested) where
  one := by
    intro p r r' h h'
    obtain ⟨k, ⟨rfl, rfl⟩ | ⟨rfl, rfl⟩⟩ := nested_made h
    · obtain ⟨m, ⟨e, rfl⟩ | ⟨e, rfl⟩⟩ := nested_made h'
      · simp only [List.cons.injEq, true_and] at e
        rw [e]
      · simp at e
    · obtain ⟨m, ⟨e, rfl⟩ | ⟨e, rfl⟩⟩ := nested_made h'
      · simp at e
      · simp only [List.cons.injEq, true_and] at e
        have := congrArg List.length e
        simp only [List.length_replicate] at this
        rw [show k = m by omega]
  early := by
    intro p r i x rest hi h _
    have hp := h.inst_names.1
    obtain ⟨k, ⟨rfl, rfl⟩ | ⟨rfl, rfl⟩⟩ := nested_made h
    · rcases exNested_nodes hp hi with ⟨e, -⟩ | ⟨e, rfl⟩ | ⟨e, -⟩ | ⟨e, -⟩
      · cases e
      · simp only [List.cons.injEq, true_and] at e
        rw [e]
        exact ⟨_, rfl, pointsTo_render (by simp) (by decide)⟩
      · simp at e
      · simp at e
    · rcases exNested_nodes hp hi with ⟨e, -⟩ | ⟨e, -⟩ | ⟨e, -⟩ | ⟨e, rfl⟩
      · cases e
      · simp at e
      · simp at e
      · have := congrArg List.length e
        simp only [List.length_cons, List.length_replicate, List.length_nil] at this
        rw [show k = 0 by omega]
        exact ⟨_, rfl, pointsTo_render (by simp) (by decide)⟩
  above := by
    intro p r x rest h _ t _ e
    obtain ⟨k, ⟨rfl, rfl⟩ | ⟨rfl, rfl⟩⟩ := nested_made h
    · simp at e
    · simp at e
  cycle := by
    intro p r x rest h _ hf
    have h1 := nested_rank h
    have h2 := nested_feeds hf
    omega

theorem nested_all (k : Nat) : Made (nodesOf exNested) (.node (['a'] :: List.replicate k ['c'])) ∧
    Made (nodesOf exNested) (.inst (['a'] :: List.replicate k ['c']) (['b'] :: List.replicate k ['c'])) ∧
    Made (nodesOf exNested) (.node (['b'] :: List.replicate (k + 1) ['c'])) ∧
    Made (nodesOf exNested) (.inst (['b'] :: List.replicate (k + 1) ['c']) (['a'] :: List.replicate k ['c'])) := by
  have snoc : ∀ (a : Str) k, a :: List.replicate (k + 1) ['c'] = (a :: List.replicate k ['c']) ++ [['c']] := by
    intro a k
    simp [List.replicate_succ']
  induction k with
  | zero =>
    have e1 : nodesOf exNested [['a']] = some (some (render [['b']])) := by decide +kernel
    have e2 : nodesOf exNested [['b'], ['c']] = some (some (render [['a']])) := by decide +kernel
    exact ⟨.node (by decide) e1, .inst (by decide) e1 (pointsTo_render (by simp) (by decide)),
      .node (by decide) e2, .inst (by decide) e2 (pointsTo_render (by simp) (by decide))⟩
  | succ k ih =>
    obtain ⟨h1, h2, h3, h4⟩ := ih
    have hno : ∀ a m, Names (a :: List.replicate m ['c']) → nodesOf exNested (a :: List.replicate m ['c']) ≠ some (some []) := by
      intro a m hn h
      rcases exNested_nodes hn h with ⟨-, e⟩ | ⟨-, e⟩ | ⟨-, e⟩ | ⟨-, e⟩
      · cases e
      · cases e
      · cases e
      · cases e
    have h3' := h3
    rw [snoc] at h3'
    have n1 : Made (nodesOf exNested) (.node (['a'] :: List.replicate (k + 1) ['c'])) := by
      rw [snoc]; exact Made.copyNode h2 h1 h3'
    have n2 : Made (nodesOf exNested) (.inst (['a'] :: List.replicate (k + 1) ['c']) (['b'] :: List.replicate (k + 1) ['c'])) := by
      have hb := hno ['a'] (k + 1) n1.names
      rw [snoc] at hb ⊢
      rw [snoc ['b']]
      exact Made.copyInst h2 h1 h3' hb
    have n1' := n1
    rw [snoc] at n1'
    have n3 : Made (nodesOf exNested) (.node (['b'] :: List.replicate (k + 2) ['c'])) := by
      rw [snoc]; exact Made.copyNode h4 h3 n1'
    refine ⟨n1, n2, n3, ?_⟩
    have hb := hno ['b'] (k + 2) n3.names
    rw [snoc] at hb ⊢
    rw [snoc ['a']]
    exact Made.copyInst h4 h3 n1' hb

/-- C81: the making of proxies does not end for `/a` as an instance of `/b` and `/b/c` as an instance of `/a`. -/
theorem C81_endless_violation (same : Str → Str → Bool) (kids : List Str → Str → List Str) (hk : GivesKids kids)
    (fuel : Nat) : compProxies same kids fuel exNested = none := by
  refine C81_endless same kids hk exNested exNested_start exNested_calm ?_ fuel
  intro l
  refine ⟨['a'] :: List.replicate (l.map List.length).sum ['c'], fun h => ?_, (nested_all _).1⟩
  have : ∀ (l : List (List Str)) p, p ∈ l → p.length ≤ (l.map List.length).sum := by
    intro l
    induction l with
    | nil => intro p h; cases h
    | cons q l ih =>
      intro p h
      rcases List.mem_cons.1 h with rfl | h
      · simp
      · have := ih p h
        simp; omega
  have := this l _ h
  simp only [List.length_cons, List.length_replicate] at this
  omega

/-! ## C82 -/

/-- C82 (partial: the start is calm, and the source of the instance is below a node which is no instance): a
child of an instance is kept when its source is a node, and taken out when its source is only implied. -/
theorem C82_implied_partial (same : Str → Str → Bool) (kids : List Str → Str → List Str) (hk : GivesKids kids) (fuel : Nat)
    (S R : St) (hs : Start S) (C : Calm (nodesOf S)) (h : compProxies same kids fuel S = some R)
    (p a rest : List Str) (x : Str) (h1 : Made (nodesOf S) (.inst p a)) (h2 : Made (nodesOf S) (.node p))
    (h3 : Made (nodesOf S) (.node (a ++ x :: rest))) (h4 : NoInst (nodesOf S) a) (h5 : nodesOf S (p ++ [x]) = none) :
    nodesOf R (p ++ [x]) ≠ none ↔ nodesOf S (a ++ [x]) ≠ none := by
  obtain ⟨T, imp, g1, g2, g3, g4⟩ := compProxies_loop hk hs h
  have hin := closed_calm same hk C hs.world g1 g3 (Made.copyNode h1 h2 h3) _ rfl
  have hiff := g2.plain C.toUniq p a x rest h1 h2 h3 h4 h5 hin
  simp only at hiff
  rw [Ne, Ne, ← hiff]
  unfold nodesOf
  rw [g4]
  by_cases hm : render (p ++ [x]) ∈ imp
  · simp [hm]
  · rw [if_neg hm, Option.map_eq_none_iff, get?_eq_none]
    simp [hm, hin]

end Nxt.Props
