import Verif.Lemmas.SepTable
import Verif.Lemmas.ProxyHeld
/-!
# C80, C82, C83 for plain instances
-/
namespace Nxt.Props
open Dict Spec Proxies Path

variable {N : List Str → Option (Option Str)}

/-- C80: with separate instances the making of proxies ends, and gives exactly the nodes there were and, for
each instance, a copy of every node below its source, each an instance of what it copies.  A copy may be there before;
it becomes an instance of what it stands for. -/
theorem C80_plain (same : Str → Str → Bool) (kids : List Str → Str → List Str) (hk : GivesKids kids)
    (S : St) (hs : Start S) (C : Separate (nodesOf S)) :
    ∃ n, ∀ fuel ≥ n, ∃ R, compProxies same kids fuel S = some R ∧
      (∀ p, Names p → (nodesOf R p ≠ none ↔ nodesOf S p ≠ none ∨
        ∃ q r t, t ≠ [] ∧ p = q ++ t ∧ InstOf (nodesOf S) q r ∧ nodesOf S (r ++ t) ≠ none)) ∧
      ∀ q r t, t ≠ [] → InstOf (nodesOf S) q r → Names t → nodesOf S (r ++ t) ≠ none →
        nodesOf R (q ++ t) = some (some (render (r ++ t))) := by
  obtain ⟨l, hl⟩ := sep_finite C hs
  refine ⟨l.length + 1, fun fuel hf => ?_⟩
  obtain ⟨R, hR⟩ := C79_ends same kids hk S hs l hl fuel hf
  refine ⟨R, hR, ?_⟩
  obtain ⟨s1, s2, s3⟩ := C79_sound same kids hk fuel S R hs hR
  have calm := Separate.calm C
  have noInst : ∀ q r u, Names (r ++ u) → InstOf (nodesOf S) q r → NoInst (nodesOf S) (r ++ u) := by
    intro q r u hn hi
    refine ⟨fun i h => ?_, fun s h => ?_⟩
    · rcases C.means _ i hn h with h0 | ⟨s, hs⟩
      · exact h0
      · exact absurd ⟨u, rfl⟩ (C.apart q r (r ++ u) s hi ⟨hn, i, h, hs⟩).2
    · obtain ⟨q', r', t', -, e, -, hi'⟩ := sep_made C h
      obtain ⟨h1, h2⟩ := C.apart q r q' r' hi hi'
      rcases comparable e with h | h
      · exact absurd h h2
      · exact absurd h h1
  have kept : ∀ q r t, t ≠ [] → InstOf (nodesOf S) q r → Names t → (∃ more, Names more ∧ nodesOf S (r ++ t ++ more) ≠ none) →
      (nodesOf R (q ++ t) ≠ none ↔ nodesOf S (r ++ t) ≠ none) := by
    intro q r t h0 hi ht ⟨more, hm, hN⟩
    by_cases hreal : nodesOf S (q ++ t) ≠ none
    · obtain ⟨i, hi'⟩ := Option.ne_none_iff_exists'.1 hreal
      have ho := (C.own q r t i hi h0 ht hi').2
      refine ⟨fun _ => ?_, fun _ => s3 _ (names_append.2 ⟨hi.1, ht⟩) hreal⟩
      cases more with
      | nil => simpa using hN
      | cons x rest => exact absurd (ho x rest hm) hN
    rcases eq_nil_or_snoc t with rfl | ⟨u, x, rfl⟩
    · exact absurd rfl h0
    · have hrn : Names r := by obtain ⟨-, i, -, hr⟩ := hi; exact hr.2.1
      have hn : Names (r ++ (u ++ [x]) ++ more) := names_append.2 ⟨names_append.2 ⟨hrn, ht⟩, hm⟩
      obtain ⟨c1, c2⟩ := sep_copies C hi u (x :: more) (by simpa using hn) (by simpa using hN)
      obtain ⟨i, hi'⟩ := Option.ne_none_iff_exists'.1 hN
      have c3 : Made (nodesOf S) (.node (r ++ u ++ x :: more)) := by
        have := Made.node hn hi'
        simpa using this
      have c5 := Classical.not_not.1 hreal
      have := C82_implied_partial same kids hk fuel S R hs calm hR (q ++ u) (r ++ u) more x c2 c1 c3 (noInst q r u
          (names_append.2 ⟨hrn, (names_append.1 ht).1⟩) hi)
        (by rw [List.append_assoc]; exact c5)
      simpa using this
  refine ⟨fun p hp => ⟨fun hp' => ?_, ?_⟩, fun q r t h0 hi ht hN => ?_⟩
  · have hk : render p ∈ keys R.nodes := Classical.byContradiction (fun h => hp' (nodesOf_none.2 h))
    obtain ⟨p', e, hm⟩ := s1 _ hk
    rw [← render_inj hp hm.names e] at hm
    rcases sep_made C hm with h | ⟨q, r, t, more, h0, ht, rfl, hi, h2, h3⟩
    · exact .inl h
    · exact .inr ⟨q, r, t, h0, rfl, hi, (kept q r t h0 hi ht ⟨more, h2, h3⟩).1 hp'⟩
  · rintro (h | ⟨q, r, t, h0, rfl, hi, hN⟩)
    · exact s3 p hp h
    · exact (kept q r t h0 hi (names_append.1 hp).2 ⟨[], names_nil, by simpa using hN⟩).2 hN
  · have hR' := (kept q r t h0 hi ht ⟨[], names_nil, by simpa using hN⟩).2 hN
    have hR2 := hR
    unfold compProxies at hR2
    rw [Option.map_eq_some_iff] at hR2
    obtain ⟨⟨T, imp⟩, hloop, e0⟩ := hR2
    obtain ⟨g1, -, -⟩ := proxyLoop_spec same hk fuel (S, []) T imp (good_start hs) (impOk_start S) hloop
    have g4 : ∀ q, get? q R.nodes = if q ∈ imp then none else get? q T.nodes := by
      rw [← e0]
      exact (eraseFold imp T g1.ok).2
    have hqt : Names (q ++ t) := names_append.2 ⟨hi.1, ht⟩
    have hrn : Names r := by obtain ⟨-, i, -, hr⟩ := hi; exact hr.2.1
    have e : get? (render (q ++ t)) R.nodes = get? (render (q ++ t)) T.nodes := by
      rw [g4]
      split
      · rename_i hin
        unfold nodesOf at hR'
        rw [g4, if_pos hin] at hR'
        exact absurd rfl hR'
      · rfl
    have hT : render (q ++ t) ∈ keys T.nodes := by
      refine Classical.byContradiction (fun h => hR' ?_)
      unfold nodesOf
      rw [e, get?_eq_none.2 h]
      rfl
    have h1 : instOf T (render (q ++ t)) = some (render (r ++ t)) := by
      cases hNc : nodesOf S (q ++ t) with
      | none =>
        obtain ⟨a, h1, h2⟩ := g1.proxy (q ++ t) hqt hNc hT
        have h3 := (sep_copies C hi t [] (by rw [List.append_nil]; exact names_append.2 ⟨hrn, ht⟩) (by rw [List.append_nil]; exact hN)).2
        rw [calm.one _ _ _ h2 h3] at h1
        exact h1
      | some i =>
        have hi0 := (C.own q r t i hi h0 ht hNc).1
        subst hi0
        exact overlaid_proxyLoop same hk C hs.world fuel (S, []) T imp (good_start hs) (impOk_start S) clear_start hloop _ _
          ⟨hqt, hNc, hN, q, r, t, h0, rfl, rfl, hi⟩
    unfold nodesOf
    rw [e]
    unfold instOf at h1
    cases hg : get? (render (q ++ t)) T.nodes with
    | none => rw [hg] at h1; cases h1
    | some n => rw [hg] at h1; exact congrArg some h1

/-- Two instances of one node, one of them relative and deeper. -/
def exSeparate : St := setOrder
  (proxyLayer [("/n", some "/r"), ("/g/m", some "../../r"), ("/r", none), ("/r/a", some ""), ("/r/b/c", none)])
  "/r".toList [['b'], ['a']]

theorem exSeparate_nodes {p : List Str} {i : Option Str} (hp : Names p) (h : nodesOf exSeparate p = some i) :
    (p = [['n']] ∧ i = some "/r".toList) ∨ (p = [['g'], ['m']] ∧ i = some "../../r".toList) ∨ (p = [['r']] ∧ i = none) ∨
    (p = [['r'], ['a']] ∧ i = some []) ∨ (p = [['r'], ['b'], ['c']] ∧ i = none) := by
  unfold nodesOf at h
  rw [Option.map_eq_some_iff] at h
  obtain ⟨n, h1, rfl⟩ := h
  have h2 := mem_of_get? h1
  have h3 : exSeparate.nodes = [(render [['n']], ⟨some "/r".toList, [], false⟩),
    (render [['g'], ['m']], ⟨some "../../r".toList, [], false⟩), (render [['r']], ⟨none, [['b'], ['a']], false⟩),
    (render [['r'], ['a']], ⟨some [], [], false⟩), (render [['r'], ['b'], ['c']], ⟨none, [], false⟩)] := by decide +kernel
  rw [h3] at h2
  simp only [List.mem_cons, Prod.mk.injEq, List.not_mem_nil, or_false] at h2
  rcases h2 with ⟨e, rfl⟩ | ⟨e, rfl⟩ | ⟨e, rfl⟩ | ⟨e, rfl⟩ | ⟨e, rfl⟩
  · exact .inl ⟨render_inj hp (by decide) e, rfl⟩
  · exact .inr (.inl ⟨render_inj hp (by decide) e, rfl⟩)
  · exact .inr (.inr (.inl ⟨render_inj hp (by decide) e, rfl⟩))
  · exact .inr (.inr (.inr (.inl ⟨render_inj hp (by decide) e, rfl⟩)))
  · exact .inr (.inr (.inr (.inr ⟨render_inj hp (by decide) e, rfl⟩)))

theorem exSeparate_points : PointsTo "/r".toList [['n']] [['r']] ∧ PointsTo "../../r".toList [['g'], ['m']] [['r']] :=
  ⟨⟨by simp, by decide, .inl (by decide +kernel)⟩,
   ⟨by simp, by decide, .inr ⟨by decide +kernel, by decide +kernel, by decide +kernel⟩⟩⟩

theorem exSeparate_inst {p r : List Str} (h : InstOf (nodesOf exSeparate) p r) :
    r = [['r']] ∧ (p = [['n']] ∨ p = [['g'], ['m']]) := by
  obtain ⟨h1, i, h2, h3⟩ := h
  rcases exSeparate_nodes h1 h2 with ⟨rfl, e⟩ | ⟨rfl, e⟩ | ⟨rfl, e⟩ | ⟨rfl, e⟩ | ⟨rfl, e⟩
  · cases e; exact ⟨pointsTo_unique h3 exSeparate_points.1, .inl rfl⟩
  · cases e; exact ⟨pointsTo_unique h3 exSeparate_points.2, .inr rfl⟩
  · cases e
  · cases e; exact absurd h3 not_pointsTo_nil
  · cases e

theorem exSeparate_separate : Separate (nodesOf exSeparate) where
  apart := by
    intro p r q s h h'
    obtain ⟨rfl, -⟩ := exSeparate_inst h
    obtain ⟨-, rfl | rfl⟩ := exSeparate_inst h' <;> decide
  means := by
    intro p i hp h
    rcases exSeparate_nodes hp h with ⟨rfl, e⟩ | ⟨rfl, e⟩ | ⟨rfl, e⟩ | ⟨rfl, e⟩ | ⟨rfl, e⟩
    · cases e; exact .inr ⟨_, exSeparate_points.1⟩
    · cases e; exact .inr ⟨_, exSeparate_points.2⟩
    · cases e
    · cases e; exact .inl rfl
    · cases e
  own := by
    intro p r t i h h0 ht hN
    obtain ⟨-, hp⟩ := exSeparate_inst h
    cases t with
    | nil => exact absurd rfl h0
    | cons x t =>
      rcases exSeparate_nodes (names_append.2 ⟨h.1, ht⟩) hN with ⟨e, -⟩ | ⟨e, -⟩ | ⟨e, -⟩ | ⟨e, -⟩ | ⟨e, -⟩ <;>
      · rcases hp with rfl | rfl <;> simp at e

theorem exSeparate_start : Start exSeparate where
  ok := by decide +kernel
  path := by
    intro q hq
    have h3 : keys exSeparate.nodes = [render [['n']], render [['g'], ['m']], render [['r']], render [['r'], ['a']],
      render [['r'], ['b'], ['c']]] := by decide +kernel
    rw [h3] at hq
    simp only [List.mem_cons, List.not_mem_nil, or_false] at hq
    rcases hq with rfl | rfl | rfl | rfl | rfl
    · exact ⟨_, by decide, rfl⟩
    · exact ⟨_, by decide, rfl⟩
    · exact ⟨_, by decide, rfl⟩
    · exact ⟨_, by decide, rfl⟩
    · exact ⟨_, by decide, rfl⟩
  world := by
    intro i hi
    have : nodesOf exSeparate [] = none := by decide +kernel
    rw [this] at hi
    cases hi
  dirty := rfl

/-- The theorem applies to this layer: for instance `/g/m/b/c` is made, and `/g/m/b` is not. -/
example : ∃ n, ∀ fuel ≥ n, ∃ R, compProxies sameText kidPaths fuel exSeparate = some R ∧
    nodesOf R [['g'], ['m'], ['b'], ['c']] = some (some "/r/b/c".toList) ∧ nodesOf R [['g'], ['m'], ['b']] = none := by
  obtain ⟨n, hn⟩ := C80_plain sameText kidPaths C79_scan exSeparate exSeparate_start exSeparate_separate
  refine ⟨n, fun fuel hf => ?_⟩
  obtain ⟨R, h1, h2, h3⟩ := hn fuel hf
  have hi : InstOf (nodesOf exSeparate) [['g'], ['m']] [['r']] :=
    ⟨by decide, _, (by decide +kernel : nodesOf exSeparate [['g'], ['m']] = some (some "../../r".toList)), exSeparate_points.2⟩
  refine ⟨R, h1, h3 [['g'], ['m']] [['r']] [['b'], ['c']] (by simp) hi (by decide) (by decide +kernel), ?_⟩
  refine Classical.byContradiction (fun h => ?_)
  rcases (h2 _ (by decide)).1 h with h | ⟨q, r, t, -, e, hq, hN⟩
  · exact h (by decide +kernel)
  · obtain ⟨rfl, rfl | rfl⟩ := exSeparate_inst hq
    · simp at e
    · simp only [List.cons_append, List.nil_append, List.cons.injEq, true_and] at e
      subst e
      exact hN (by decide +kernel)

/-- Run on the same layer. -/
example : (compProxies sameText kidPaths 4 exSeparate).map (fun R => R.nodes.map (fun n => (n.1, n.2.inst))) =
    some ([("/n", some "/r"), ("/g/m", some "/r"), ("/r", none), ("/r/a", some ""), ("/r/b/c", none), ("/n/a", some "/r/a"),
      ("/g/m/a", some "/r/a"), ("/n/b/c", some "/r/b/c"), ("/g/m/b/c", some "/r/b/c")].map
        (fun e => (e.1.toList, e.2.map String.toList))) := by decide +kernel

/-- `/n` is an instance of `/r` with `/n/a` in place of the copy of `/r/a` and `/n/z` of its own. -/
def exLeaf : St := proxyLayer [("/n", some "/r"), ("/n/a", none), ("/n/z", none), ("/r", none), ("/r/a", none), ("/r/b", none)]

def exLeaf_table : List (List Str × Option Str) :=
  [([['n']], some "/r".toList), ([['n'], ['a']], none), ([['n'], ['z']], none), ([['r']], none), ([['r'], ['a']], none),
   ([['r'], ['b']], none)]

theorem exLeaf_nodes : exLeaf.nodes = exLeaf_table.map (fun e => (render e.1, ⟨e.2, [], false⟩)) := by decide +kernel

theorem exLeaf_names : ∀ e ∈ exLeaf_table, Names e.1 := by
  unfold Names IsName
  decide +kernel

theorem exLeaf_path {p : List Str} {i : Option Str} (hp : Names p) (h : nodesOf exLeaf p = some i) : (p, i) ∈ exLeaf_table := by
  unfold nodesOf at h
  rw [Option.map_eq_some_iff] at h
  obtain ⟨n, h1, rfl⟩ := h
  have h2 := mem_of_get? h1
  rw [exLeaf_nodes] at h2
  obtain ⟨e, h3, h4⟩ := List.mem_map.1 h2
  rw [Prod.mk.injEq] at h4
  rw [← render_inj (exLeaf_names e h3) hp h4.1, ← h4.2]
  exact h3

theorem exLeaf_separate : Separate (nodesOf exLeaf) :=
  separate_of_table (K := exLeaf_table) (P := [([['n']], [['r']])]) (fun _ _ => exLeaf_path)
    (by
      intro p j h
      simp only [exLeaf_table, List.mem_cons, Prod.mk.injEq, reduceCtorEq, and_false, List.not_mem_nil, or_false,
        Option.some.injEq] at h
      obtain ⟨rfl, rfl⟩ := h
      exact .inr ⟨_, List.mem_singleton.2 rfl, exSeparate_points.1⟩)
    ⟨by decide +kernel, by decide +kernel⟩

theorem exLeaf_start : Start exLeaf where
  ok := by decide +kernel
  path := by
    intro q hq
    have h3 : keys exLeaf.nodes = exLeaf_table.map (fun e => render e.1) := by decide +kernel
    rw [h3] at hq
    obtain ⟨e, h4, rfl⟩ := List.mem_map.1 hq
    exact ⟨_, exLeaf_names e h4, rfl⟩
  world := by
    intro i hi
    have : nodesOf exLeaf [] = none := by decide +kernel
    rw [this] at hi
    cases hi
  dirty := rfl

/-- The theorem applies with nodes below the instance. -/
example := C80_plain sameText kidPaths C79_scan exLeaf exLeaf_start exLeaf_separate

/-- Run on the same layer: `/n/a` becomes an instance, `/n/b` is made, `/n/z` stays as it is. -/
example : (compProxies sameText kidPaths 4 exLeaf).map (fun R => R.nodes.map (fun n => (n.1, n.2.inst))) =
    some ([("/n", some "/r"), ("/n/a", some "/r/a"), ("/n/z", none), ("/r", none), ("/r/a", none), ("/r/b", none),
      ("/n/b", some "/r/b")].map (fun e => (e.1.toList, e.2.map String.toList))) := by decide +kernel

/-! ## C82 -/

/-- C82: along a chain of instances a proxy is taken out although its source is a node in the end. -/
theorem C82_chain_violation :
    let S := proxyLayer [("/r3", none), ("/r2", some "/r3"), ("/r1", some "/r2"), ("/r0", some "/r1"), ("/r", some "/r0"),
      ("/n", some "/r"), ("/r3/x", none), ("/r/x/y", none)]
    ∃ R, compProxies sameText kidPaths 10 S = some R ∧ instOf R "/n".toList = some "/r".toList ∧
      "/r/x".toList ∈ keys R.nodes ∧ "/n/x/y".toList ∈ keys R.nodes ∧ "/n/x".toList ∉ keys R.nodes := by
  refine ⟨_, rfl, ?_⟩
  decide +kernel

/-- Without the node below, the proxy is kept. -/
example :
    let S := proxyLayer [("/r3", none), ("/r2", some "/r3"), ("/r1", some "/r2"), ("/r0", some "/r1"), ("/r", some "/r0"),
      ("/n", some "/r"), ("/r3/x", none)]
    ∃ R, compProxies sameText kidPaths 10 S = some R ∧ "/n/x".toList ∈ keys R.nodes := by
  refine ⟨_, rfl, ?_⟩
  decide +kernel

/-! ## C83 -/

/-- C83: an empty instance path is kept, so that the node takes nothing from the source of its parent. -/
theorem C83_empty_kept (same : Str → Str → Bool) (kids : List Str → Str → List Str) (hk : GivesKids kids) (fuel : Nat)
    (S R : St) (hs : Start S) (h : compProxies same kids fuel S = some R) (p : List Str) (hp : Names p)
    (he : nodesOf S p = some (some [])) : nodesOf R p = some (some []) := by
  obtain ⟨T, imp, g1, g2, -, g4⟩ := compProxies_loop hk hs h
  have hb := g1.blocked p hp he
  unfold nodesOf
  rw [g4, if_neg]
  · unfold instOf at hb
    cases hg : get? (render p) T.nodes with
    | none => rw [hg] at hb; cases hb
    | some n => rw [hg] at hb; exact congrArg some hb
  · intro hin
    obtain ⟨p', h1, h2, h3⟩ := g2.new _ hin
    rw [← render_inj hp h2 h1, he] at h3
    cases h3

/-- C83: an instance path given on a child of an instance is lost when the source has that child. -/
theorem C83_overwritten_violation :
    let S := proxyLayer [("/n", some "/r"), ("/n/c", some "/q"), ("/q", none), ("/q/z", none), ("/r", none), ("/r/c", none)]
    ∃ R, compProxies sameText kidPaths 5 S = some R ∧ instOf R "/n/c".toList = some "/r/c".toList := by
  refine ⟨_, rfl, ?_⟩
  decide +kernel

/-- An empty one is not. -/
example :
    let S := proxyLayer [("/n", some "/r"), ("/n/c", some ""), ("/q", none), ("/q/z", none), ("/r", none), ("/r/c", none), ("/r/c/d", none)]
    ∃ R, compProxies sameText kidPaths 5 S = some R ∧ instOf R "/n/c".toList = some [] ∧ "/n/c/d".toList ∉ keys R.nodes := by
  refine ⟨_, rfl, ?_⟩
  decide +kernel

end Nxt.Props
