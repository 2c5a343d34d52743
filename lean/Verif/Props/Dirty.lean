import Verif.Lemmas.Dirty
/-!
# Properties C33–C35: dependency maps and instance traces
-/
namespace Nxt.Props
open Dict Dirty Spec

/-! ## C33 -/

/-- C33: the loop stops on every map, cyclic ones included, and gives exactly the paths which depend on
`p` through one or more steps; direct dependants come first. -/
theorem C33_dirties_reachable (m : Dict Str (List Str)) (p : Str) (h : ∀ l, get? p m = some l → l.Nodup) :
    ∃ N, ∀ fuel ≥ N, ∃ r, nodeDirties m fuel p = some r ∧
      (∀ q, q ∈ r ↔ Reach m p q) ∧ r.Nodup ∧ ∀ l, get? p m = some l → l <+: r := by
  refine ⟨left (allDeps m) (concerns m p) + 2, fun fuel hf => ?_⟩
  have hn : (concerns m p).Nodup := by
    unfold concerns
    cases hg : get? p m with
    | none => simp
    | some l => exact h l hg
  obtain ⟨r, h1, h2, h3, h4⟩ := dirtyLoop_spec m p fuel (concerns m p) (p :: concerns m p) hf hn
    (fun x hx => .one (mem_concerns.1 hx)) (fun x hx => List.mem_cons.1 hx)
    (fun x y hx hxn => absurd (List.mem_cons.2 hx) hxn)
  refine ⟨r, h1, h4, h3, fun l hl => ?_⟩
  unfold concerns at h2
  rwa [hl] at h2

/-- A cyclic map. -/
example : let m : Dict Str (List Str) := [("/a".toList, ["/b".toList]), ("/b".toList, ["/c".toList, "/a".toList])]
    nodeDirties m 9 "/a".toList = some ["/b".toList, "/c".toList, "/a".toList] := by decide +kernel

/-- C33: contrary to the doc string, the path itself is not in the result unless it depends on itself. -/
theorem C33_not_reflexive (m : Dict Str (List Str)) (p : Str) (h : ¬ Reach m p p) (fuel : Nat) (r : List Str)
    (hn : ∀ l, get? p m = some l → l.Nodup) (hr : nodeDirties m fuel p = some r) : p ∉ r := by
  obtain ⟨N, hN⟩ := C33_dirties_reachable m p hn
  have mono : ∀ (f : Nat) (s t : List Str) (r : List Str), dirtyLoop m f s t = some r →
      ∀ g ≥ f, dirtyLoop m g s t = some r := by
    intro f
    induction f with
    | zero => intro s t r h; cases h
    | succ f ih =>
      intro s t r h g hg
      cases g with
      | zero => omega
      | succ g =>
        rw [dirtyLoop] at h ⊢
        split
        · rename_i he; rw [if_pos he] at h; exact h
        · rename_i he; rw [if_neg he] at h; exact ih _ _ _ h g (by omega)
  obtain ⟨r', h1, h2, -⟩ := hN (max N fuel) (Nat.le_max_left _ _)
  have := mono fuel _ _ r hr (max N fuel) (Nat.le_max_right _ _)
  unfold nodeDirties at h1
  rw [this] at h1
  cases h1
  exact fun hp => h ((h2 p).1 hp)

/-! ## C34 -/

/-- C34: after any history of updates from an empty map, `b` is a direct dependant of `a` exactly when
the history says so, and no list has duplicates. -/
theorem C34_history (same : Str → Str → Bool) (ops : List Op) (a b : Str) :
    (Depends (runOps same [] ops) a b ↔ Edge same ops.reverse a b) ∧
    (∀ p l, get? p (runOps same [] ops) = some l → l.Nodup) := by
  have key : ∀ (rev : List Op), NodupMap (runOps same [] rev.reverse) ∧
      ∀ a b, Depends (runOps same [] rev.reverse) a b ↔ Edge same rev a b := by
    intro rev
    induction rev with
    | nil =>
      refine ⟨⟨ok_nil, fun p l h => by cases h⟩, fun a b => ?_⟩
      constructor
      · rintro ⟨l, h, -⟩; cases h
      · exact False.elim
    | cons op rev ih =>
      obtain ⟨ih1, ih2⟩ := ih
      rw [List.reverse_cons]
      unfold runOps at ih1 ih2 ⊢
      rw [List.foldl_append]
      generalize rev.reverse.foldl _ [] = m at ih1 ih2
      cases op with
      | extend p c =>
        refine ⟨nodupMap_extend same ih1 p c, fun a b => ?_⟩
        show Depends (extend same m p c) a b ↔ _
        rw [← mem_concerns, concerns_extend, Edge, ← ih2 a b, ← mem_concerns]
        have hW : Path.WORLD = "/".toList := rfl
        rw [← hW]
        split
        · rename_i h
          obtain ⟨rfl, h1, h2, h3, h4⟩ := h
          rw [List.mem_append, List.mem_singleton]
          constructor
          · rintro (h | rfl)
            · exact .inl h
            · exact .inr ⟨rfl, rfl, h1, h2, h3⟩
          · rintro (h | h)
            · exact .inl h
            · exact .inr h.2.1
        · rename_i h
          constructor
          · exact .inl
          · rintro (h' | ⟨rfl, rfl, h1, h2, h3⟩)
            · exact h'
            · refine Classical.byContradiction (fun hb => h ⟨rfl, h1, h2, h3, hb⟩)
      | remove p =>
        refine ⟨nodupMap_remove ih1 p, fun a b => ?_⟩
        show Depends (remove m p) a b ↔ _
        rw [Edge, ← ih2 a b, ← mem_concerns]
        have hW : Path.WORLD = "/".toList := rfl
        rw [← hW]
        by_cases hp : p = Path.WORLD
        · unfold remove
          rw [if_pos hp, mem_concerns]
          simp [hp]
        · rw [concerns_remove ih1 p a hp]
          simp only [hp, false_or]
          rw [← mem_concerns]
          split
          · rename_i hap
            simp [hap]
          · rename_i hap
            simp [hap]
  have := key ops.reverse
  rw [List.reverse_reverse] at this
  exact ⟨this.2 a b, this.1.2⟩

/-- C34: every list stays duplicate free, so the result of `get_node_dirties` is too. -/
theorem C34_dirties_after_history (same : Str → Str → Bool) (ops : List Op) (p : Str) :
    ∃ N, ∀ fuel ≥ N, ∃ r, nodeDirties (runOps same [] ops) fuel p = some r ∧ r.Nodup ∧
      ∀ q, q ∈ r ↔ Reach (runOps same [] ops) p q := by
  obtain ⟨N, h⟩ := C33_dirties_reachable (runOps same [] ops) p ((C34_history same ops p p).2 p)
  exact ⟨N, fun fuel hf => by
    obtain ⟨r, h1, h2, h3, -⟩ := h fuel hf
    exact ⟨r, h1, h3, h2⟩⟩

/-- C34: when two equal paths are not the same object, a node becomes its own dependant. -/
theorem C34_identity_violation (p : Str) (hp : p ≠ "/".toList) :
    Depends (runOps (fun _ _ => false) [] [.extend p p]) p p ∧
    ¬ Depends (runOps (fun a b => a = b) [] [.extend p p]) p p := by
  rw [(C34_history _ _ p p).1, (C34_history _ _ p p).1]
  constructor
  · exact .inr ⟨rfl, rfl, hp, hp, rfl⟩
  · rintro (h | ⟨-, -, -, -, h⟩)
    · exact h
    · simp at h

/-- A history with a removal. -/
example : let ops : List Op := [.extend "/a".toList "/b".toList, .extend "/a".toList "/c".toList,
      .extend "/b".toList "/a".toList, .remove "/b".toList]
    runOps (fun a b => a = b) [] ops = [("/a".toList, ["/c".toList])] := by decide +kernel

/-! ## C35 -/

/-- C35: tracing instance sources stops on every instance graph, cyclic ones included.  The trace is a
chain of instance sources without repeats, all of them nodes of the layer, and it ends where the next
source is missing or was seen. -/
theorem C35_trace (nodes : List Str) (inst : Str → Option Str) (n : Str) :
    ∀ fuel ≥ nodes.length + 1, ∃ r, instanceSources nodes inst fuel n [] = some r ∧
      r.Nodup ∧ (∀ p ∈ r, p ∈ nodes) ∧ Chain inst n r ∧
      (∀ p, inst (r.getLast?.getD n) = some p → p ∉ nodes ∨ p ∈ r) := by
  have key : ∀ fuel n trace, trace.Nodup → (∀ p ∈ trace, p ∈ nodes) → nodes.length + 1 ≤ fuel + trace.length →
      ∃ r, instanceSources nodes inst fuel n trace = some (trace ++ r) ∧ (trace ++ r).Nodup ∧
        (∀ p ∈ trace ++ r, p ∈ nodes) ∧ Chain inst n r ∧
        (∀ p, inst (r.getLast?.getD n) = some p → p ∉ nodes ∨ p ∈ trace ++ r) := by
    intro fuel
    induction fuel with
    | zero =>
      intro n trace hn hs hf
      have hlen : trace.length ≤ nodes.length := length_le_of_nodup hn hs
      omega
    | succ fuel ih =>
      intro n trace hn hs hf
      rw [instanceSources]
      cases hi : inst n with
      | none => exact ⟨[], by simp, by simpa using hn, by simpa using hs, .nil n, by simp [hi]⟩
      | some p =>
        simp only
        by_cases hc : p ∈ nodes ∧ p ∉ trace
        · rw [if_pos hc]
          obtain ⟨r, h1, h2, h3, h4, h5⟩ := ih p (trace ++ [p])
            (List.nodup_append.2 ⟨hn, by simp, by rintro x hx y hy rfl; rw [List.mem_singleton.1 hy] at hx; exact hc.2 hx⟩)
            (by
              intro x hx
              rcases List.mem_append.1 hx with hx | hx
              · exact hs x hx
              · rw [List.mem_singleton.1 hx]; exact hc.1)
            (by rw [List.length_append, List.length_singleton]; omega)
          rw [List.append_assoc] at h1 h2 h3 h5
          refine ⟨p :: r, h1, h2, h3, .cons hi h4, ?_⟩
          intro q hq
          apply h5
          cases r with
          | nil => exact hq
          | cons a r =>
            have e : ∀ x y : Str, (a :: r).getLast?.getD x = (a :: r).getLast?.getD y := by
              intro x y
              rw [List.getLast?_eq_some_getLast (by simp)]; rfl
            rw [e p n]
            rw [List.getLast?_cons_cons] at hq
            exact hq
        · rw [if_neg hc]
          refine ⟨[], by simp, by simpa using hn, by simpa using hs, .nil n, ?_⟩
          intro q hq
          have : q = p := by
            have : inst n = some q := hq
            rw [hi] at this; cases this; rfl
          subst this
          by_cases hq1 : q ∈ nodes
          · right
            refine Classical.byContradiction (fun h => hc ⟨hq1, by simpa using h⟩)
          · exact .inl hq1
  intro fuel hf
  obtain ⟨r, h1, h2, h3, h4, h5⟩ := key fuel n [] List.nodup_nil (by simp) (by simpa using hf)
  exact ⟨r, h1, h2, h3, h4, h5⟩

/-- A cycle of three nodes entered from outside. -/
example : let inst : Str → Option Str := fun p => if p = ['a'] then some ['b'] else if p = ['b'] then some ['c'] else
      if p = ['c'] then some ['a'] else if p = ['x'] then some ['a'] else none
    instanceSources [['a'], ['b'], ['c'], ['x']] inst 5 ['x'] [] = some [['a'], ['b'], ['c']] ∧
    instanceSources [['a'], ['b'], ['c'], ['x']] inst 5 ['a'] [] = some [['b'], ['c'], ['a']] := by decide +kernel

end Nxt.Props
