import Verif.Props.ProxiesPlain
import Verif.Lemmas.ProxyOrder
/-!
# C84: child orders of instances
-/
namespace Nxt.Props
open Dict Spec Proxies Path

/-- The orders in the end are those after the loop, for the nodes which are kept. -/
theorem compProxies_ords {same : Str → Str → Bool} {kids : List Str → Str → List Str} (hk : GivesKids kids) {fuel : Nat}
    {S R : St} (hs : Start S) (hd : ∀ q n, (q, n) ∈ S.nodes → n.order.Nodup) (h : compProxies same kids fuel S = some R) :
    ∃ T, Good (nodesOf S) T ∧ Ords (nodesOf S) (ordersOf S) T ∧
      (∀ q ∈ keys T.nodes, ∃ S', Good (nodesOf S) S' ∧ Ords (nodesOf S) (ordersOf S) S' ∧ keys S'.nodes = keys T.nodes ∧
        ∀ p, (orderOf (discover same kids S' q).1 p).Sublist (orderOf T p)) ∧
      ∀ p, nodesOf R p ≠ none → render p ∈ keys T.nodes ∧ ordersOf R p = orderOf T (render p) := by
  unfold compProxies at h
  rw [Option.map_eq_some_iff] at h
  obtain ⟨⟨T, imp⟩, h1, rfl⟩ := h
  obtain ⟨g1, -, -⟩ := proxyLoop_spec same hk fuel (S, []) T imp (good_start hs) (impOk_start S) h1
  obtain ⟨o1, o2⟩ := proxyLoop_ords same hk fuel (S, []) T imp (good_start hs) (impOk_start S) (ords_start hd) h1
  refine ⟨T, g1, o1, o2, fun p hp => ?_⟩
  have e := (eraseFold imp T g1.ok).2 (render p)
  unfold nodesOf at hp
  unfold ordersOf orderOf
  simp only at hp ⊢
  rw [e] at hp ⊢
  split at hp
  · exact absurd rfl hp
  · rename_i hi
    rw [if_neg hi]
    refine ⟨Classical.byContradiction (fun hn => hp ?_), rfl⟩
    rw [get?_eq_none.2 hn]; rfl

/-- C84: making proxies keeps every child order free of duplicates and in its own order, adds the name of each
proxy to that of its parent, and adds nothing but names of proxies, names in the child orders of sources and names
of paths below a source which have no node. -/
theorem C84_child_orders (same : Str → Str → Bool) (kids : List Str → Str → List Str) (hk : GivesKids kids) (fuel : Nat)
    (S R : St) (hs : Start S) (hd : ∀ q n, (q, n) ∈ S.nodes → n.order.Nodup) (h : compProxies same kids fuel S = some R)
    (p : List Str) (hp : Names p) (hR : nodesOf R p ≠ none) :
    (ordersOf R p).Nodup ∧ (ordersOf S p).Sublist (ordersOf R p) ∧
    (∀ x, Names [x] → nodesOf S (p ++ [x]) = none → nodesOf R (p ++ [x]) ≠ none → x ∈ ordersOf R p) ∧
    ∀ x ∈ ordersOf R p, Listed (nodesOf S) (ordersOf S) p x := by
  obtain ⟨T, -, o1, -, g⟩ := compProxies_ords hk hs hd h
  obtain ⟨-, e⟩ := g p hR
  rw [e]
  exact ⟨o1.nodup _, o1.grow p hp, fun x hx hN hx' => o1.listed p x (names_append.2 ⟨hp, hx⟩) hN (g _ hx').1,
    fun x hx => o1.sound p x hp hx⟩

/-- C84: an instance, and every copy below it, has all names which are in the child order of what it copies. -/
theorem C84_instance_order (same : Str → Str → Bool) (kids : List Str → Str → List Str) (hk : GivesKids kids) (fuel : Nat)
    (S R : St) (hs : Start S) (C : Separate (nodesOf S)) (hd : ∀ q n, (q, n) ∈ S.nodes → n.order.Nodup)
    (h : compProxies same kids fuel S = some R) (q r t more : List Str) (x : Str) (hi : InstOf (nodesOf S) q r)
    (hn : Names (r ++ t ++ x :: more)) (hN : nodesOf S (r ++ t) ≠ none) (hN' : nodesOf S (r ++ t ++ x :: more) ≠ none)
    (hR : nodesOf R (q ++ t) ≠ none) : ∀ y ∈ ordersOf S (r ++ t), y ∈ ordersOf R (q ++ t) := by
  intro y hy
  obtain ⟨T, g1, -, g3, g⟩ := compProxies_ords hk hs hd h
  obtain ⟨gk, e⟩ := g (q ++ t) hR
  obtain ⟨S', s1, s2, s3, s4⟩ := g3 _ gk
  obtain ⟨c1, c2⟩ := sep_copies C hi t (x :: more) hn hN'
  have hrt := c2.inst_names.2.1
  obtain ⟨i, hi'⟩ := Option.ne_none_iff_exists'.1 hN'
  rw [← s3] at gk
  have hp := s1.calm_possible (Separate.calm C) hs.world gk c2 (Made.node hn hi')
  have ed := orderOf_discover same kids S' gk (render (q ++ t))
  rw [hp] at ed
  simp only [true_and] at ed
  rw [if_pos (s1.init _ hrt hN)] at ed
  rw [e]
  refine (s4 _).subset ?_
  rw [ed]
  exact ((C15_union_nodup _ _ (s2.nodup _) (s2.nodup _)).2 y).2 (.inr ((s2.grow _ hrt).subset hy))

/-- The theorems apply to a layer with a relative instance: the child order of `/r` comes to `/g/m`. -/
example : ∃ fuel R, compProxies sameText kidPaths fuel exSeparate = some R ∧ ∀ y ∈ [['b'], ['a']], y ∈ ordersOf R [['g'], ['m']] := by
  obtain ⟨n, hn⟩ := C80_plain sameText kidPaths C79_scan exSeparate exSeparate_start exSeparate_separate
  obtain ⟨R, h1, h2, -⟩ := hn n (Nat.le_refl n)
  have hi : InstOf (nodesOf exSeparate) [['g'], ['m']] [['r']] :=
    ⟨by decide, _, (by decide +kernel : nodesOf exSeparate [['g'], ['m']] = some (some "../../r".toList)), exSeparate_points.2⟩
  refine ⟨n, R, h1, ?_⟩
  have := C84_instance_order sameText kidPaths C79_scan n exSeparate R exSeparate_start exSeparate_separate (by
      have : ∀ e ∈ exSeparate.nodes, e.2.order.Nodup := by decide +kernel
      exact fun q n h => this (q, n) h) h1 [['g'], ['m']] [['r']] [] [] ['a'] hi (by decide) (by decide +kernel)
    (by decide +kernel) ((h2 _ (by decide)).2 (.inl (by decide +kernel)))
  have e : ordersOf exSeparate ([['r']] ++ []) = [['b'], ['a']] := by decide +kernel
  rw [e] at this
  exact this

/-- A layer from paths, instance paths and child orders. -/
def orderedLayer (l : List (String × Option String × List String)) : St :=
  ⟨l.map (fun e => (e.1.toList, ⟨e.2.1.map String.toList, e.2.2.map String.toList, false⟩)), []⟩

/-- An instance with a child and an order of its own.  The source `/r` comes to list `i`, which is no node. -/
example : (compProxies sameText kidPaths 4 (orderedLayer [("/n", some "/r", ["z"]), ("/n/z", none, []), ("/r", none, ["b", "a", "gone"]),
      ("/r/a", none, []), ("/r/b", none, []), ("/r/i/k", none, [])])).map (fun R => R.nodes.map (fun n => (n.1, n.2.order)))
    = some ([("/n", ["z", "b", "a", "gone", "i"]), ("/n/z", []), ("/r", ["b", "a", "gone", "i"]), ("/r/a", []), ("/r/b", []),
      ("/r/i/k", []), ("/n/a", []), ("/n/b", []), ("/n/i/k", [])].map (fun e => (e.1.toList, e.2.map String.toList))) := by
  decide +kernel

/-- C84, what does not hold: making proxies leaves the child orders of nodes which are no instances alone.  Here the
source `/r`, no instance itself, comes to list `i`, at which there is no node. -/
theorem C84_source_violation :
    let S := orderedLayer [("/n", some "/r", []), ("/r", none, []), ("/r/i/k", none, [])]
    ∃ R, compProxies sameText kidPaths 3 S = some R ∧ ordersOf S [['r']] = [] ∧ ordersOf R [['r']] = [['i']] ∧
      nodesOf R [['r'], ['i']] = none := by
  refine ⟨_, rfl, ?_⟩
  decide +kernel

/-- The source `/n/a` is a proxy: it does not come to list `i`. -/
example : (compProxies sameText kidPaths 9 (orderedLayer [("/n", some "/r", []), ("/n/a/i/k", none, []), ("/r/a", none, []),
      ("/m", some "/n", []), ("/m/a", some "/n/a", [])])).map (fun R => (ordersOf R [['n'], ['a']], ordersOf R [['m'], ['a']]))
    = some ([], [['i']]) := by
  decide +kernel

end Nxt.Props
