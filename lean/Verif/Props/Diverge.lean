import Verif.Model.Diverge
import Verif.Spec.Diverge
import Verif.Lemmas.Dict
import Verif.Props.Path
/-!
# Property C129: diverging instances
-/
namespace Nxt.Props
open Dict NodeData Spec

namespace Diverging
open Diverge

theorem get?_current (comp : Dict Str Str) (paths : List Str) (p : Str) :
    get? p (currentInstances comp paths) = if p ∈ paths then (get? p comp).filter (fun i => i ≠ []) else none := by
  unfold currentInstances
  have key : ∀ (ps : List Str) (cur : Dict Str Str), (∀ q, get? q cur = none ∨ get? q cur = (get? q comp).filter (fun i => i ≠ [])) →
      get? p (ps.foldl (keepInstance comp) cur) = if p ∈ ps then (get? p comp).filter (fun i => i ≠ []) else get? p cur := by
    intro ps
    induction ps with
    | nil => intro cur _; simp
    | cons q ps ih =>
      intro cur hcur
      rw [List.foldl_cons]
      unfold keepInstance
      cases hq : get? q comp with
      | none =>
        show get? p (ps.foldl (keepInstance comp) cur) = _
        rw [ih cur hcur]
        by_cases hp : p ∈ ps
        · rw [if_pos hp, if_pos (List.mem_cons_of_mem _ hp)]
        · rw [if_neg hp]
          by_cases he : p = q
          · subst he
            rw [if_pos List.mem_cons_self, hq]
            rcases hcur p with h | h
            · rw [h]; rfl
            · rw [h, hq]
          · rw [if_neg (by simp [he, hp])]
      | some v =>
        cases v with
        | nil =>
          show get? p (ps.foldl (keepInstance comp) cur) = _
          rw [ih cur hcur]
          by_cases hp : p ∈ ps
          · rw [if_pos hp, if_pos (List.mem_cons_of_mem _ hp)]
          · rw [if_neg hp]
            by_cases he : p = q
            · subst he
              rw [if_pos List.mem_cons_self, hq]
              rcases hcur p with h | h
              · rw [h]; rfl
              · rw [h, hq]
            · rw [if_neg (by simp [he, hp])]
        | cons c i =>
          show get? p (ps.foldl (keepInstance comp) (Dict.set q (c :: i) cur)) = _
          rw [ih _ (by
            intro r
            rw [get?_set]
            split
            · rename_i e; subst e; right; rw [hq]; rfl
            · exact hcur r)]
          by_cases hp : p ∈ ps
          · rw [if_pos hp, if_pos (List.mem_cons_of_mem _ hp)]
          · rw [if_neg hp, get?_set]
            by_cases he : p = q
            · subst he
              rw [if_pos rfl, if_pos List.mem_cons_self, hq]; rfl
            · rw [if_neg (by exact he), if_neg (by simp [he, hp])]
  rw [key _ [] (fun _ => .inl rfl)]
  simp only [List.mem_reverse]
  rfl

theorem instText_iff (n : Dict Str Val) (j : Str) : instText n = some j ↔ getAttr n "_instance".toList = .str j := by
  unfold instText
  rw [show A_INSTANCE = "_instance".toList from rfl]
  split
  · rename_i s h; rw [h]; simp
  · rename_i h
    constructor
    · intro e; cases e
    · intro e; exact absurd e (h j)

theorem mem_paths {ns : List Str} (h : Names ns) (p : Str) : p ∈ Path.allAncestorPaths (render ns) ++ [Path.WORLD] ↔
    ∃ q rest, ns = q ++ rest ∧ (rest ≠ [] ∨ ns = []) ∧ p = render q := by
  rw [List.mem_append, C10_ancestors_mem ns h, List.mem_singleton]
  constructor
  · rintro (⟨ms, rest, _, h2, h3, h4⟩ | rfl)
    · exact ⟨ms, rest, h3, .inl h2, h4⟩
    · exact ⟨[], ns, rfl, by by_cases e : ns = [] <;> simp [e], rfl⟩
  · rintro ⟨q, rest, h1, h2, h3⟩
    by_cases hq : q = []
    · right; rw [h3, hq]; rfl
    · left
      refine ⟨q, rest, hq, ?_, h1, h3⟩
      rcases h2 with h2 | h2
      · exact h2
      · rw [h2] at h1
        exact absurd (List.append_eq_nil_iff.1 h1.symm).1 hq

end Diverging
open Diverging

/-- C129: a diverging instance is reported exactly if some layer has another instance path than the composite node for a
node above the one in question (for the world: for itself).  Missing: the node itself is not looked at
(`C129_self_violation`), and a relative instance path differs from the expanded one of the composite
(`C129_relative_violation`). -/
theorem C129_reported_partial (comp : Dict Str Str) (layers : List Comp.LayerNodes) {ns : List Str} (h : Names ns) :
    Diverge.diverges comp layers (render ns) = true ↔
      ∃ q rest, ns = q ++ rest ∧ (rest ≠ [] ∨ ns = []) ∧ Departs comp layers q := by
  unfold Diverge.diverges
  simp only
  rw [List.any_eq_true]
  have key : ∀ p, p ∈ Path.allAncestorPaths (render ns) ++ [Path.WORLD] → ∀ q, p = render q →
      (layers.any (Diverge.differs (Diverge.currentInstances comp (Path.allAncestorPaths (render ns) ++ [Path.WORLD])) p) = true ↔
        Departs comp layers q) := by
    rintro p hp q rfl
    rw [List.any_eq_true]
    unfold Diverge.differs Departs
    rw [get?_current, if_pos hp]
    constructor
    · rintro ⟨l, hl, hd⟩
      cases hn : get? (render q) l with
      | none => rw [hn] at hd; cases hd
      | some n =>
        rw [hn] at hd
        simp only [Bool.and_eq_true, decide_eq_true_eq, Option.isSome_iff_exists] at hd
        obtain ⟨h1, ⟨i, hi⟩, ⟨j, hj⟩⟩ := hd
        obtain ⟨h2, h3⟩ := Option.filter_eq_some_iff.1 hi
        refine ⟨i, h2, by simpa using h3, l, hl, n, hn, j, (instText_iff n j).1 hj, ?_⟩
        rintro rfl
        exact h1 (hi.trans hj.symm)
    · rintro ⟨i, hi, hne, l, hl, n, hn, j, hj, hij⟩
      refine ⟨l, hl, ?_⟩
      rw [hn]
      have h1 : (get? (render q) comp).filter (fun i => decide (i ≠ [])) = some i := by
        rw [Option.filter_eq_some_iff]; exact ⟨hi, by simpa using hne⟩
      simp only
      rw [h1, (instText_iff n j).2 hj]
      simp [Ne.symm hij]
  constructor
  · rintro ⟨p, hp, hd⟩
    rw [List.mem_reverse] at hp
    obtain ⟨q, rest, h1, h2, h3⟩ := (mem_paths h p).1 hp
    exact ⟨q, rest, h1, h2, (key p hp q h3).1 hd⟩
  · rintro ⟨q, rest, h1, h2, hd⟩
    have hp := (mem_paths h (render q)).2 ⟨q, rest, h1, h2, rfl⟩
    exact ⟨render q, by rw [List.mem_reverse]; exact hp, (key _ hp q rfl).2 hd⟩

/-- C129: if nothing is reported, the layers alone give every node above which is an instance of something the same
instance path as the composite node, or none. -/
theorem C129_silent_partial (comp : Dict Str Str) (layers : List Comp.LayerNodes) {ns : List Str} (h : Names ns)
    (hs : Diverge.diverges comp layers (render ns) = false) {q rest : List Str} (hq : ns = q ++ rest) (hr : rest ≠ [])
    {i : Str} (hi : get? (render q) comp = some i) (hne : i ≠ [])
    (htext : ∀ l ∈ layers, ∀ n, get? (render q) l = some n →
      (getAttr n "_instance".toList).hasOpinion = true → ∃ j, getAttr n "_instance".toList = .str j) :
    lowerInstance layers q = none ∨ lowerInstance layers q = some (.str i) := by
  unfold lowerInstance
  cases hst : strongest (stack layers (render q)) "_instance".toList with
  | none => exact .inl rfl
  | some n =>
    right
    have hm := List.mem_of_find?_eq_some hst
    have ho := List.find?_some hst
    obtain ⟨l, hl, hn⟩ := List.mem_filterMap.1 hm
    obtain ⟨j, hj⟩ := htext l hl n hn ho
    rw [Option.map_some, hj]
    by_cases hij : j = i
    · rw [hij]
    · have := (C129_reported_partial comp layers h).2 ⟨q, rest, hq, .inl hr, i, hi, hne, l, hl, n, hn, j, hj, hij⟩
      rw [hs] at this; cases this

/-- C129, what does not hold: a lower layer having another instance path for the node itself is not reported. -/
theorem C129_self_violation :
    let comp : Dict Str Str := [("/a".toList, "/b".toList)]
    let lower : List Comp.LayerNodes := [[("/a".toList, [(A_INSTANCE, .str "/c".toList)])]]
    Diverge.diverges comp lower "/a".toList = false ∧ Departs comp lower [['a']] ∧
      Diverge.diverges comp lower "/a/x".toList = true := by
  refine ⟨by decide +kernel, ⟨"/b".toList, by decide +kernel, by decide +kernel, _, List.mem_singleton.2 rfl,
    [(A_INSTANCE, .str "/c".toList)], by rfl, "/c".toList, by rfl, by decide +kernel⟩, by decide +kernel⟩

/-- C129, what does not hold: a relative instance path, of which the composite node has the expansion, counts as
different, though every layer agrees. -/
theorem C129_relative_violation {ns q rest : List Str} (h : Names ns) (hq : ns = q ++ rest) (hr : rest ≠ []) {rel real : Str}
    (hexp : Path.expandRelative (some rel) (render q) = some real) (hne : real ≠ []) (hrel : rel ≠ real)
    (comp : Dict Str Str) (hc : get? (render q) comp = some real) (l : Comp.LayerNodes) (n : Dict Str Val)
    (hl : get? (render q) l = some n) (hn : getAttr n "_instance".toList = .str rel) :
    Diverge.diverges comp [l] (render ns) = true :=
  (C129_reported_partial comp [l] h).2 ⟨q, rest, hq, .inl hr, real, hc, hne, l, List.mem_singleton.2 rfl, n, hl, rel, hn, hrel⟩

/-- Such a case: `/a` instances `../b`, which is `/b`. -/
example : Path.expandRelative (some "../b".toList) "/a".toList = some "/b".toList ∧
    Diverge.diverges [("/a".toList, "/b".toList)] [[("/a".toList, [(A_INSTANCE, .str "../b".toList)])]] "/a/x".toList = true ∧
    Diverge.diverges [("/a".toList, "/b".toList)] [[("/a".toList, [(A_INSTANCE, .str "/b".toList)])], [("/a".toList, [])]]
      "/a/x".toList = false := by
  decide +kernel

end Nxt.Props
