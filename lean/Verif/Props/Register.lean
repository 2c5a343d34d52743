import Verif.Props.SubLayers
/-!
# C163: the places layers know after a layer has been registered

`register_layer` (stage.py:2601-2605), which is all of `new_layer` (stage.py:2589-2599) that changes the stage,
writes the place of the new layer only.
-/
namespace Nxt.Props
open Spec SubLayers

namespace Places

/-- A stage of three layers in order, and layer objects 3 and 4 which are not in it. -/
def ex : Stg where
  stack := [0, 1, 2]
  lay := fun k => { file := [], real := [], paths := [], refs := [], idx := k, parent := none }

theorem ex_indexed : Indexed ex := by
  intro i k h
  match i, h with
  | 0, h => exact (Option.some.inj h).symm
  | 1, h => exact (Option.some.inj h).symm
  | 2, h => exact (Option.some.inj h).symm
  | n + 3, h => simp [ex] at h

theorem new_idx (S : Stg) (k idx : Nat) : ((register S k idx).lay k).idx = idx := by
  unfold register; rw [upd_lay, if_pos rfl]

theorem other (S : Stg) (k idx j : Nat) (h : j ≠ k) : (register S k idx).lay j = S.lay j := by
  unfold register; rw [upd_lay, if_neg h]

theorem stack_eq (S : Stg) (k idx : Nat) : (register S k idx).stack = S.stack.take idx ++ k :: S.stack.drop idx := rfl

theorem before (S : Stg) (k idx i : Nat) (h : i < idx) (hl : i < S.stack.length) :
    (register S k idx).stack[i]? = S.stack[i]? := by
  rw [stack_eq, List.getElem?_append_left (by rw [List.length_take]; omega), List.getElem?_take_of_lt h]

theorem behind (S : Stg) (k idx i : Nat) (h : idx ≤ i) (hl : i < S.stack.length) :
    (register S k idx).stack[i + 1]? = S.stack[i]? := by
  have hlen : (S.stack.take idx).length = idx := by rw [List.length_take]; omega
  rw [stack_eq, List.getElem?_append_right (by omega), hlen, show i + 1 - idx = (i - idx) + 1 by omega,
    List.getElem?_cons_succ, List.getElem?_drop, show idx + (i - idx) = i by omega]

end Places

/-- C163: the new layer comes to the place asked for, and to the end when there is no such place. -/
theorem C163_place (S : Stg) (k idx : Nat) :
    (register S k idx).stack[min idx S.stack.length]? = some k := by
  have hlen : (S.stack.take idx).length = min idx S.stack.length := List.length_take
  rw [Places.stack_eq, List.getElem?_append_right (by omega), hlen, Nat.sub_self]
  rfl

example : (register Places.ex 3 1).stack = [0, 3, 1, 2] ∧ (register Places.ex 3 7).stack = [0, 1, 2, 3] := by decide

/-- C163: every layer which comes behind the new one knows a place where it is not any more. -/
theorem C163_behind_violation (S : Stg) (hi : Indexed S) (k idx : Nat) (hk : k ∉ S.stack)
    (i j : Nat) (hij : idx ≤ i) (hj : S.stack[i]? = some j) :
    (register S k idx).stack[i + 1]? = some j ∧ ((register S k idx).lay j).idx = i ∧
      (register S k idx).stack[((register S k idx).lay j).idx]? ≠ some j := by
  have hl : i < S.stack.length := (List.getElem?_eq_some_iff.1 hj).1
  have hjk : j ≠ k := fun e => hk (e ▸ List.mem_of_getElem? hj)
  have e1 : ((register S k idx).lay j).idx = i := by rw [Places.other S k idx j hjk]; exact hi i j hj
  refine ⟨(Places.behind S k idx i hij hl).trans hj, e1, ?_⟩
  rw [e1]
  intro h
  rcases Nat.lt_or_eq_of_le hij with hlt | heq
  · obtain ⟨m, rfl⟩ : ∃ m, i = m + 1 := ⟨i - 1, by omega⟩
    rw [Places.behind S k idx m (by omega) (by omega)] at h
    have := hi m j h
    rw [hi (m + 1) j hj] at this
    omega
  · have := C163_place S k idx
    rw [Nat.min_eq_left (by omega)] at this
    rw [← heq] at h
    rw [this] at h
    exact hjk (Option.some.inj h).symm

/-- In the example the layers 1 and 2 know the places of the layers 3 and 1. -/
example : Indexed Places.ex ∧ (register Places.ex 3 1).stack = [0, 3, 1, 2] ∧
    ((register Places.ex 3 1).lay 1).idx = 1 ∧ ((register Places.ex 3 1).lay 2).idx = 2 :=
  ⟨Places.ex_indexed, by decide, rfl, rfl⟩

/-- C163: after registering, every layer knows its place just if the new layer was registered at the end. -/
theorem C163_exact (S : Stg) (hi : Indexed S) (k idx : Nat) (hk : k ∉ S.stack) :
    Indexed (register S k idx) ↔ idx = S.stack.length := by
  constructor
  · intro h
    have hp := h _ k (C163_place S k idx)
    rw [Places.new_idx] at hp
    rcases Nat.lt_or_ge idx S.stack.length with hlt | hge
    case inr => omega
    have hv := C163_behind_violation S hi k idx hk idx S.stack[idx] (Nat.le_refl _) (List.getElem?_eq_getElem hlt)
    have := h _ _ hv.1
    rw [hv.2.1] at this
    omega
  · intro h i j hj
    subst h
    by_cases hl : i < S.stack.length
    · rw [Places.before S k _ i hl hl] at hj
      have hjk : j ≠ k := fun e => hk (e ▸ List.mem_of_getElem? hj)
      rw [Places.other S k _ j hjk]
      exact hi i j hj
    · have hlen : i < (register S k S.stack.length).stack.length := (List.getElem?_eq_some_iff.1 hj).1
      have hs : (register S k S.stack.length).stack = S.stack ++ [k] := by
        rw [Places.stack_eq, List.take_length, List.drop_length]
      rw [hs, List.length_append, List.length_singleton] at hlen
      have e : i = S.stack.length := by omega
      have := C163_place S k S.stack.length
      rw [Nat.min_self, ← e] at this
      rw [← e] at hj
      rw [this] at hj
      rw [← Option.some.inj hj, Places.new_idx]
      exact e.symm

example : Indexed (register Places.ex 3 3) ∧ ¬ Indexed (register Places.ex 3 2) ∧ ¬ Indexed (register Places.ex 3 4) :=
  ⟨(C163_exact _ Places.ex_indexed 3 3 (by decide)).2 rfl,
    fun h => absurd ((C163_exact _ Places.ex_indexed 3 2 (by decide)).1 h) (by decide),
    fun h => absurd ((C163_exact _ Places.ex_indexed 3 4 (by decide)).1 h) (by decide)⟩

/-- C163: registering one layer after the other at the end, as loading files does (stage.py:349), leaves the
layers in the order they came in, and every layer knows its place. -/
theorem C163_loaded (ks : List Nat) (S : Stg) (hi : Indexed S) (hn : (S.stack ++ ks).Nodup) :
    (ks.foldl (fun T k => register T k T.stack.length) S).stack = S.stack ++ ks ∧
      Indexed (ks.foldl (fun T k => register T k T.stack.length) S) := by
  induction ks generalizing S with
  | nil => exact ⟨(List.append_nil _).symm, hi⟩
  | cons k ks ih =>
    have hs : (register S k S.stack.length).stack = S.stack ++ [k] := by
      rw [Places.stack_eq, List.take_length, List.drop_length]
    have hk : k ∉ S.stack := fun h => (List.nodup_append.1 hn).2.2 k h k List.mem_cons_self rfl
    have := ih (register S k S.stack.length) ((C163_exact S hi k _ hk).2 rfl)
      (by rw [hs, List.append_assoc]; exact hn)
    rw [hs, List.append_assoc] at this
    exact this

example : Indexed ([3, 4].foldl (fun T k => register T k T.stack.length) Places.ex) :=
  (C163_loaded [3, 4] Places.ex Places.ex_indexed (by decide)).2

/-- C163: a layer registered between others shares its recorded place with the layer it has pushed away. -/
theorem C163_shared_violation (S : Stg) (hi : Indexed S) (k idx : Nat) (hk : k ∉ S.stack) (hlt : idx < S.stack.length) :
    ∃ j ∈ (register S k idx).stack, j ≠ k ∧ ((register S k idx).lay j).idx = ((register S k idx).lay k).idx := by
  have hg : S.stack[idx]? = some S.stack[idx] := List.getElem?_eq_getElem hlt
  have hjk : S.stack[idx] ≠ k := fun e => hk (e ▸ List.getElem_mem hlt)
  refine ⟨S.stack[idx], List.mem_of_getElem? ((Places.behind S k idx idx (Nat.le_refl _) hlt).trans hg), hjk, ?_⟩
  rw [Places.new_idx, Places.other S k idx _ hjk]
  exact hi idx _ hg

example : (1 : Nat) < Places.ex.stack.length ∧ ((register Places.ex 3 1).lay 1).idx = ((register Places.ex 3 1).lay 3).idx := by
  decide

/-- C163: the slice `_sub_layers[layer.layer_idx():]` of a layer which was pushed back (stage.py:3591, the layer and
those below it) begins with one layer too many, which is stronger than the layer itself. -/
theorem C163_slice_violation (S : Stg) (hi : Indexed S) (k idx : Nat) (hk : k ∉ S.stack)
    (i j : Nat) (hij : idx ≤ i) (hj : S.stack[i]? = some j) :
    ∃ x, x ∉ S.stack.drop i ∧ j ∈ S.stack.drop i ∧
      (register S k idx).stack.drop ((register S k idx).lay j).idx = x :: S.stack.drop i := by
  have hl : i < S.stack.length := (List.getElem?_eq_some_iff.1 hj).1
  have hv := C163_behind_violation S hi k idx hk i j hij hj
  have hlen : (S.stack.take idx).length = idx := by rw [List.length_take]; omega
  have hnew : i < (register S k idx).stack.length := by
    have := (List.getElem?_eq_some_iff.1 hv.1).1
    omega
  have hrest : (register S k idx).stack.drop (i + 1) = S.stack.drop i := by
    rw [Places.stack_eq, List.drop_append, hlen, List.drop_of_length_le (by omega), List.nil_append,
      show i + 1 - idx = (i - idx) + 1 by omega, List.drop_succ_cons, List.drop_drop, show idx + (i - idx) = i by omega]
  refine ⟨(register S k idx).stack[i], ?_, List.mem_iff_getElem?.2 ⟨0, by rw [List.getElem?_drop]; exact hj⟩, ?_⟩
  · rcases Nat.lt_or_eq_of_le hij with hlt | heq
    · obtain ⟨m, rfl⟩ : ∃ m, i = m + 1 := ⟨i - 1, by omega⟩
      have hm := Places.behind S k idx m (by omega) (by omega)
      rw [List.getElem?_eq_getElem hnew] at hm
      intro hx
      obtain ⟨r, hr⟩ := List.mem_iff_getElem?.1 hx
      rw [List.getElem?_drop] at hr
      have h1 := hi _ _ hm.symm
      have h2 := hi _ _ hr
      omega
    · subst heq
      have hp := C163_place S k idx
      rw [Nat.min_eq_left (by omega), List.getElem?_eq_getElem hnew] at hp
      rw [Option.some.inj hp]
      exact fun h => hk (List.mem_of_mem_drop h)
  · rw [hv.2.1, List.drop_eq_getElem_cons hnew, hrest]

/-- The layers from layer 2 on are said to be layer 1 and layer 2. -/
example : (register Places.ex 3 1).stack.drop ((register Places.ex 3 1).lay 2).idx = [1, 2] := by decide

end Nxt.Props
