import Verif.Lemmas.ChildCache
import Verif.Props.Children
/-!
# Property C64: the child cache agrees with the nodes of the layer
-/
namespace Nxt.Props
open Dict Tree Spec

/-- C64, for histories in which a node is only added below a cached parent or as the first child: starting
from an empty cache, after any such history a query tells exactly the nodes with that parent path,
each once, whether or not the answer comes from the cache. -/
theorem C64_history_partial (same : Str → Str → Bool) (hs : ∀ a b, same a b = true ↔ a = b) (nodes : Nodes)
    (hn : Ok nodes) (ops : List COp) (ha : AllowedAll same (nodes, []) ops) (p : Str) (hp : p ≠ []) :
    let st := ops.foldl (stepC same) (nodes, [])
    (query same st.1 st.2 p).2.paths.Nodup ∧
    ∀ q, q ∈ (query same st.1 st.2 p).2.paths ↔ ∃ n, (q, n) ∈ st.1 ∧ n.parent = p := by
  have key : ∀ (ops : List COp) (st : Nodes × Cache), Ok st.1 → Ok st.2 → CacheOk st.1 st.2 →
      AllowedAll same st ops → let st' := ops.foldl (stepC same) st
      Ok st'.1 ∧ Ok st'.2 ∧ CacheOk st'.1 st'.2 := by
    intro ops
    induction ops with
    | nil => intro st h1 h2 h3 _; exact ⟨h1, h2, h3⟩
    | cons op ops ih =>
      intro st h1 h2 h3 ⟨a1, a2⟩
      obtain ⟨s1, s2, s3⟩ := cacheOk_step hs h1 h2 h3 a1
      exact ih _ s1 s2 s3 a2
  obtain ⟨k1, k2, k3⟩ := key ops (nodes, []) hn ok_nil (fun p e he => by cases he) ha
  simp only
  generalize ops.foldl (stepC same) (nodes, []) = st at k1 k2 k3
  unfold query
  split
  · rename_i e he
    split at he
    · cases he
    · rename_i hw
      obtain ⟨-, -, h3, h4⟩ := k3 p e he hp hw
      exact ⟨h3, h4⟩
  · exact ⟨scan_nodup k1 p, mem_scan hs st.1 p⟩

/-- C64 fails without that condition: adding a node below a parent which is not cached makes the earlier
children disappear. -/
theorem C64_lost_children_violation (same : Str → Str → Bool) (nodes : Nodes) (path : Str) (n : LNode)
    (c : Cache) (h1 : n.parent ≠ []) (h2 : n.parent ≠ ['/']) (h3 : n.parent ∉ keys c) :
    let st := stepC same (nodes, c) (.add path n)
    (query same st.1 st.2 n.parent).2.paths = [path] := by
  have hW : Path.WORLD = ['/'] := rfl
  simp only [stepC]
  have e : addChild c n.parent path = Dict.set n.parent ⟨[path], [path], [path]⟩ c := by
    unfold addChild
    rw [if_neg (fun h => h.elim h1 h2), get?_eq_none.2 h3]
    rfl
  rw [e]
  unfold query
  rw [hW, if_neg h2, get?_set, if_pos rfl]

/-- C64, C47: asking for the descendants as a node table puts the deeper ones among the cached children. -/
theorem C64_table_alias_violation :
    let nodes : Nodes := [("/a".toList, ⟨"a".toList, "/".toList, [], .none, .none⟩),
      ("/a/b".toList, ⟨"b".toList, "/a".toList, [], .none, .none⟩),
      ("/a/b/c".toList, ⟨"c".toList, "/a/b".toList, [], .none, .none⟩)]
    let same : Str → Str → Bool := fun a b => a == b
    ∃ c r, descTable same nodes 9 [] "/a".toList = some (c, r) ∧ r = ["/a/b".toList, "/a/b/c".toList] ∧
      (query same nodes c "/a".toList).2.paths = ["/a/b".toList] ∧
      (query same nodes c "/a".toList).2.table = ["/a/b".toList, "/a/b/c".toList] ∧
      descTable same nodes 9 c "/a".toList =
        some (c, ["/a/b".toList, "/a/b/c".toList, "/a/b/c".toList]) := by
  refine ⟨_, _, rfl, ?_⟩
  decide +kernel

/-- C47 fails for return type Node: only direct children are given. -/
theorem C47_node_type_violation (same : Str → Str → Bool) (hs : ∀ a b, same a b = true ↔ a = b) (nodes : Nodes)
    (T : TreeOk nodes) (ns : List Str) (x y : Str) (hn : Names (ns ++ [x, y]))
    (h1 : render (ns ++ [x]) ∈ keys nodes) (h2 : render (ns ++ [x, y]) ∈ keys nodes) :
    IsDescendant nodes (render ns) (render (ns ++ [x, y])) ∧
    render (ns ++ [x, y]) ∉ descNodes same nodes [] (render ns) := by
  constructor
  · refine ⟨ns, [x, y], hn, by simp, rfl, rfl, ?_⟩
    intro a b hab ha
    match a, ha, hab with
    | [_], _, hab =>
      simp only [List.cons_append, List.cons.injEq] at hab
      rw [← hab.1]; exact h1
    | [_, _], _, hab =>
      simp only [List.cons_append, List.cons.injEq] at hab
      rw [← hab.1, ← hab.2.1]; exact h2
    | _ :: _ :: _ :: _, _, hab => simp at hab
  · unfold descNodes query
    have : (if render ns = Path.WORLD then none else get? (render ns) ([] : Cache)) = none := by
      split <;> rfl
    rw [this]
    simp only
    rw [mem_scan hs]
    rintro ⟨n, hm, hp⟩
    rcases T.node _ n hm with ⟨h, -⟩ | ⟨ms, z, m1, m2, m3, -⟩
    · have := (Path.render_eq_world hn).1 h
      simp at this
    · have e := Path.render_inj hn m1 m2
      rw [m3] at hp
      have e2 := Path.render_inj (Path.names_append.1 m1).1 (Path.names_append.1 hn).1 hp
      rw [e2] at e
      have := congrArg List.length e
      simp at this

/-- A history with a query in between. -/
example :
    let same : Str → Str → Bool := fun a b => a == b
    let ops : List COp := [.query "/a".toList, .add "/a/e".toList ⟨"e".toList, "/a".toList, [], .none, .none⟩,
      .remove "/a/b".toList]
    AllowedAll same (treeSample, []) ops ∧
    (let st := ops.foldl (stepC same) (treeSample, [])
     (query same st.1 st.2 "/a".toList).2.paths = ["/a/d".toList, "/a/e".toList]) := by
  refine ⟨⟨trivial, ⟨by decide +kernel, .inl (by decide +kernel)⟩, trivial, trivial⟩, by decide +kernel⟩

end Nxt.Props
