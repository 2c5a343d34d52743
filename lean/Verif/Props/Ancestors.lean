import Verif.Model.Ancestors
import Verif.Spec.Ancestors
import Verif.Props.Children
/-!
# Properties C134 and C135: the ancestors of a node, and the execution cursor
-/
namespace Nxt.Props
open Spec Tree Dict Path

namespace Above

theorem upwards_snoc (ns : List Str) (x : Str) (h : ns ≠ []) : upwards (ns ++ [x]) = ns :: upwards ns := by
  unfold upwards
  have h1 : (ns ++ [x]).length - 1 = (ns.length - 1) + 1 := by
    have := List.length_pos_iff.2 h
    simp; omega
  rw [h1, List.range'_concat, List.reverse_append, List.reverse_singleton, List.singleton_append, List.map_cons]
  have h2 : 1 + 1 * (ns.length - 1) = ns.length := by
    have := List.length_pos_iff.2 h
    omega
  rw [h2, List.take_left]
  congr 1
  apply List.map_congr_left
  intro k hk
  rw [List.mem_reverse, List.mem_range'_1] at hk
  rw [List.take_append_of_le_length (by omega)]

/-- The loop from a parent path on. -/
theorem climb_eq (nodes : Nodes) (T : TreeOk nodes) : ∀ (fuel : Nat) (ns : List Str) (below : Str) (acc : List (Str × LNode × Str)),
    Names ns → ns.length < fuel →
    ∃ t, climb nodes fuel (render ns) below acc = some (acc ++ t) ∧
      t.map (·.1) = ((if ns = [] then [] else ns :: upwards ns).filter (fun a => (get? (render a) nodes).isSome)).map render ∧
      (∀ e ∈ t, get? e.1 nodes = some e.2.1) ∧
      (t.map (fun e => e.2.2) = (below :: t.map (fun e => e.2.1.name)).take t.length)
  | 0, _, _, _, _, h => by omega
  | fuel + 1, ns, below, acc, hn, hf => by
    rcases eq_nil_or_snoc ns with rfl | ⟨m, l, rfl⟩
    · refine ⟨[], ?_, by simp, by simp, by simp⟩
      rw [climb, if_pos render_nil, List.append_nil]
    · have hw : render (m ++ [l]) ≠ Path.WORLD := by rw [ne_eq, render_eq_world hn]; simp
      have hm : Names m := (names_append.1 hn).1
      have hf' : m.length < fuel := by simp at hf; omega
      have htail : (if m ++ [l] = [] then [] else (m ++ [l]) :: upwards (m ++ [l])) =
          (m ++ [l]) :: (if m = [] then [] else m :: upwards m) := by
        rw [if_neg (by simp)]
        by_cases h0 : m = []
        · subst h0; rfl
        · rw [if_neg h0, upwards_snoc m l h0]
      rw [climb, if_neg hw, htail, List.filter_cons]
      cases hg : get? (render (m ++ [l])) nodes with
      | none =>
        obtain ⟨t, h1, h2, h3, h4⟩ := climb_eq nodes T fuel m below acc hm hf'
        simp only []
        rw [Path.parentPath_render_snoc hn, h1]
        exact ⟨t, rfl, by simpa using h2, h3, h4⟩
      | some n =>
        simp only []
        have hp : n.parent = render m ∧ n.name = l := by
          rcases T.node _ n (mem_of_get? hg) with ⟨h, -⟩ | ⟨ms, y, h1, h2, h3, h4⟩
          · exact absurd h hw
          · have := render_inj hn h1 h2
            have h5 := List.append_inj' this rfl
            simp at h5
            rw [h3, h4, h5.1, h5.2]
            exact ⟨rfl, rfl⟩
        obtain ⟨t, h1, h2, h3, h4⟩ := climb_eq nodes T fuel m n.name (acc ++ [(render (m ++ [l]), n, below)]) hm hf'
        rw [hp.1, h1]
        refine ⟨(render (m ++ [l]), n, below) :: t, by simp, ?_, ?_, ?_⟩
        · simp only [List.map_cons, h2, Option.isSome_some, if_true]
        · intro e he
          rcases List.mem_cons.1 he with rfl | he
          · exact hg
          · exact h3 e he
        · simp only [List.map_cons, List.length_cons, List.take_succ_cons, h4]

end Above
open Above

/-- C134: the ancestors of a node are the nodes of the layer at the proper prefixes of its path, the nearest first, each with
the node at its path. -/
theorem C134_ancestors (nodes : Nodes) (T : TreeOk nodes) (ns : List Str) (x : Str) (hn : Names (ns ++ [x])) (fuel : Nat)
    (hf : ns.length < fuel) (hi : (get? (render (ns ++ [x])) nodes).isSome) :
    ∃ t, ancestors nodes fuel (render (ns ++ [x])) = .table t ∧ t.map (·.1) = (nodesAbove nodes (ns ++ [x])).map render ∧
      (∀ e ∈ t, get? e.1 nodes = some e.2.1) ∧
      t.map (fun e => e.2.2) = (x :: t.map (fun e => e.2.1.name)).take t.length := by
  obtain ⟨n, hg⟩ := Option.isSome_iff_exists.1 hi
  have hp : n.parent = render ns ∧ n.name = x := by
    rcases T.node _ n (mem_of_get? hg) with ⟨h, -⟩ | ⟨ms, y, h1, h2, h3, h4⟩
    · exact absurd h (by rw [← Path.WORLD, render_eq_world hn]; simp)
    · have h5 := List.append_inj' (render_inj hn h1 h2) rfl
      simp at h5
      rw [h3, h4, h5.1, h5.2]
      exact ⟨rfl, rfl⟩
  obtain ⟨t, h1, h2, h3, h4⟩ := climb_eq nodes T fuel ns x [] (names_append.1 hn).1 hf
  refine ⟨t, ?_, ?_, h3, h4⟩
  · unfold ancestors
    rw [hg]
    simp only []
    rw [hp.1, hp.2, h1]
    rfl
  · rw [h2]
    unfold nodesAbove
    by_cases h0 : ns = []
    · subst h0; rfl
    · rw [if_neg h0, upwards_snoc ns x h0]

/-- C134: the paths alone. -/
theorem C134_paths (nodes : Nodes) (T : TreeOk nodes) (ns : List Str) (x : Str) (hn : Names (ns ++ [x])) (fuel : Nat)
    (hf : ns.length < fuel) (hi : (get? (render (ns ++ [x])) nodes).isSome) :
    ancestorPaths (ancestors nodes fuel (render (ns ++ [x]))) = some ((nodesAbove nodes (ns ++ [x])).map render) := by
  obtain ⟨t, h1, h2, -⟩ := C134_ancestors nodes T ns x hn fuel hf hi
  rw [h1, ← h2]
  rfl

/-- C134: whether there are any. -/
theorem C134_any (nodes : Nodes) (T : TreeOk nodes) (ns : List Str) (x : Str) (hn : Names (ns ++ [x])) (fuel : Nat)
    (hf : ns.length < fuel) (hi : (get? (render (ns ++ [x])) nodes).isSome) :
    ∃ b, hasAncestors (ancestors nodes fuel (render (ns ++ [x]))) = some b ∧
      (b = true ↔ ∃ a r, a ≠ [] ∧ r ≠ [] ∧ ns ++ [x] = a ++ r ∧ render a ∈ keys nodes) := by
  obtain ⟨t, h1, h2, -⟩ := C134_ancestors nodes T ns x hn fuel hf hi
  refine ⟨!t.isEmpty, by rw [h1]; rfl, ?_⟩
  have h3 : t.isEmpty = (nodesAbove nodes (ns ++ [x])).isEmpty := by
    have := congrArg List.isEmpty h2
    simpa using this
  rw [h3]
  simp only [Bool.not_eq_true', List.isEmpty_eq_false_iff_exists_mem]
  unfold nodesAbove upwards
  constructor
  · rintro ⟨a, ha⟩
    obtain ⟨ha1, ha2⟩ := List.mem_filter.1 ha
    obtain ⟨k, hk, rfl⟩ := List.mem_map.1 ha1
    rw [List.mem_reverse, List.mem_range'_1] at hk
    refine ⟨_, (ns ++ [x]).drop k, ?_, ?_, (List.take_append_drop k _).symm, get?_isSome.1 ha2⟩
    · intro h
      have := congrArg List.length h
      simp at this hk
      omega
    · intro h
      have := congrArg List.length h
      simp at this hk
      omega
  · rintro ⟨a, r, ha, hr, he, hk⟩
    refine ⟨a, List.mem_filter.2 ⟨List.mem_map.2 ⟨a.length, ?_, ?_⟩, get?_isSome.2 hk⟩⟩
    · rw [List.mem_reverse, List.mem_range'_1, he]
      have h4 := List.length_pos_iff.2 ha
      have h5 := List.length_pos_iff.2 hr
      rw [List.length_append]
      omega
    · rw [he, List.take_left]

/-- C134: a path without a node raises an error. -/
theorem C134_missing (nodes : Nodes) (fuel : Nat) (p : Str) (h : p ∉ keys nodes) : ancestors nodes fuel p = .raised := by
  unfold ancestors
  rw [get?_eq_none.2 h]

/-- C134, what does not hold: `get_top_node` does not give the topmost node above a node, but its parent. -/
theorem C134_top_violation (nodes : Nodes) (T : TreeOk nodes) (ns : List Str) (x : Str) (hn : Names (ns ++ [x])) (fuel : Nat)
    (hf : ns.length < fuel) (hi : (get? (render (ns ++ [x])) nodes).isSome) (hd : ns ≠ [])
    (hp : (get? (render ns) nodes).isSome) :
    topNode (ancestors nodes fuel (render (ns ++ [x]))) = some (some (render ns)) := by
  unfold topNode
  rw [C134_paths nodes T ns x hn fuel hf hi]
  unfold nodesAbove
  rw [upwards_snoc ns x hd, List.filter_cons, if_pos hp]
  rfl

/-- C134, what does not hold: the dict of names does not name the ancestors, but the nodes they were reached from; two of one
name leave only the later one. -/
theorem C134_names_violation :
    let n (name parent : String) : LNode := ⟨name.toList, parent.toList, [], .none, .none⟩
    let nodes : Nodes := [("/x".toList, n "x" "/"), ("/x/b".toList, n "b" "/x"), ("/x/b/b".toList, n "b" "/x/b"),
      ("/x/b/c".toList, n "c" "/x/b")]
    ancestorNames (ancestors nodes 5 "/x/b/c".toList) = some [("c".toList, "/x/b".toList), ("b".toList, "/x".toList)] ∧
    ancestorNames (ancestors nodes 5 "/x/b/b".toList) = some [("b".toList, "/x".toList)] ∧
    ancestorPaths (ancestors nodes 5 "/x/b/b".toList) = some ["/x/b".toList, "/x".toList] := by
  refine ⟨?_, ?_, ?_⟩ <;> decide +kernel

-- the hypotheses are met: `/a/c/x`, above which `/a/c` is missing
example : ancestorPaths (ancestors treeSample 4 (render (["a".toList, "c".toList] ++ ["x".toList]))) =
    some ((nodesAbove treeSample (["a".toList, "c".toList] ++ ["x".toList])).map render) :=
  C134_paths treeSample treeSample_ok ["a".toList, "c".toList] "x".toList (by decide +kernel) 4 (by decide) (by decide +kernel)

example : (nodesAbove treeSample (["a".toList, "c".toList] ++ ["x".toList])).map render = ["/a".toList] := by decide +kernel

/-! ## C135 -/

/-- C135: from every place of an order without repetitions the next node is the one at the next place. -/
theorem C135_next (order : List Str) (hd : order.Nodup) (hne : ∀ c ∈ order, c ≠ []) (i : Nat) (hi : i < order.length) :
    nextNode order (some order[i]) = order[i + 1]? := by
  have h1 : order[i] ∈ order := List.getElem_mem hi
  unfold nextNode
  simp only []
  rw [if_neg (hne _ h1), if_pos h1, List.Nodup.idxOf_getElem hd]
  split
  · rfl
  · rw [List.getElem?_eq_none (by omega)]

/-- C135: the previous node, from the third place on. -/
theorem C135_prev_partial (order : List Str) (hd : order.Nodup) (hne : ∀ c ∈ order, c ≠ []) (i : Nat) (hi : i < order.length)
    (h2 : 2 ≤ i) : prevNode order (some order[i]) = order[i - 1]? := by
  have h1 : order[i] ∈ order := List.getElem_mem hi
  unfold prevNode
  simp only []
  rw [if_neg (hne _ h1), if_pos h1, List.Nodup.idxOf_getElem hd, if_pos (by omega)]

/-- C135, what does not hold: the first node is never a previous node, although the second comes after it. -/
theorem C135_first_violation (a b : Str) (rest : List Str) (hab : a ≠ b) (ha : a ≠ []) (hb : b ≠ []) :
    nextNode (a :: b :: rest) (some a) = some b ∧ prevNode (a :: b :: rest) (some b) = none := by
  constructor
  · simp [nextNode, ha]
  · unfold prevNode
    have h1 : (a :: b :: rest).idxOf b = 1 := by
      have h2 : (a == b) = false := by simpa using hab
      simp [List.idxOf_cons, h2]
    simp only []
    rw [if_neg hb, if_pos (by simp), h1, if_neg (by omega)]

/-- C135, what does not hold: a node which comes twice is left towards its first successor, also from its second place. -/
theorem C135_twice_violation (c x : Str) (pre post : List Str) (hc : c ≠ []) (hp : c ∉ pre) :
    nextNode (pre ++ c :: x :: post) (some c) = some x := by
  unfold nextNode
  have h1 : (pre ++ c :: x :: post).idxOf c = pre.length := by
    rw [List.idxOf_append, if_neg hp, List.idxOf_cons_self]; simp
  simp only []
  rw [if_neg hc, if_pos (by simp), h1, if_pos (by simp)]
  simp

/-- C135: outside of the order there is no next and no previous node. -/
theorem C135_outside (order : List Str) (c : Option Str) (h : ∀ x, c = some x → x ∉ order) :
    nextNode order c = none ∧ prevNode order c = none := by
  cases c with
  | none => exact ⟨rfl, rfl⟩
  | some c =>
    have := h c rfl
    constructor
    · unfold nextNode; simp [this]
    · unfold prevNode; simp [this]

example : let order := ["/a".toList, "/a/b".toList, "/c".toList, "/d".toList]
    order.Nodup ∧ (∀ c ∈ order, c ≠ []) ∧ prevNode order (some "/d".toList) = some "/c".toList ∧
      nextNode order (some "/d".toList) = none := by decide +kernel

end Nxt.Props
