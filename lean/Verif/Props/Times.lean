import Verif.Lemmas.Times
import Verif.Lemmas.Legacy115
/-!
# Properties C38, C39: the execution loop and its clock
-/
namespace Nxt.Props
open Exec Spec

/-! ## C39 -/

theorem play_inv (es : List (Bool × Str × Int)) (ts : Times) (h : playTimes es [] = .ok ts) :
    (∀ p, runsOf ts p = pairUp (timesOf false p es) (timesOf true p es)) ∧
    ∀ p, (timesOf true p es).length ≤ (timesOf false p es).length := by
  induction es using Legacy.snocInduct generalizing ts with
  | nil => cases h; exact ⟨fun _ => rfl, fun _ => Nat.le_refl _⟩
  | snoc es e ih =>
    obtain ⟨x, q, t⟩ := e
    rw [playTimes_snoc] at h
    cases hp : playTimes es [] with
    | error _ => rw [hp] at h; cases h
    | ok u =>
      rw [hp] at h
      obtain ⟨i1, i2⟩ := ih u hp
      simp only [Except.bind] at h
      cases x with
      | false =>
        simp only [Bool.false_eq_true, if_false, Except.ok.injEq] at h
        subst h
        constructor
        · intro p
          rw [runsOf_enter, timesOf_append, timesOf_append, timesOf_single, timesOf_single, i1]
          by_cases hq : q = p
          · simp [hq, pairUp_enter _ _ _ (i2 p)]
          · simp [hq]
        · intro p
          rw [timesOf_append, timesOf_append, timesOf_single, timesOf_single]
          have := i2 p
          by_cases hq : q = p <;> simp [hq] <;> omega
      | true =>
        simp only [if_true] at h
        unfold exit at h
        cases hc : closeFirst q t u with
        | none =>
          rw [hc] at h
          simp only at h
          split at h <;> cases h
        | some v =>
          rw [hc] at h
          cases h
          have hr := closeFirst_runs u q t
          rw [hc, i1, closeRuns_pairUp _ _ _ (i2 q)] at hr
          split at hr
          · rename_i hlt
            simp only [Option.map_some, Option.some.injEq] at hr
            constructor
            · intro p
              rw [timesOf_append, timesOf_append, timesOf_single, timesOf_single]
              by_cases hq : q = p
              · subst hq; simp [hr]
              · simp only [hq, and_false, if_false, List.append_nil]
                rw [closeFirst_other hc (Ne.symm hq), i1]
            · intro p
              rw [timesOf_append, timesOf_append, timesOf_single, timesOf_single]
              have := i2 p
              by_cases hq : q = p
              · subst hq; simp; omega
              · simp [hq]; omega
          · cases hr

/-- C39: the runs of a path are its enter times paired up in order with its exit times. -/
theorem C39_pairs (es : List (Bool × Str × Int)) (ts : Times) (h : playTimes es [] = .ok ts) (p : Str) :
    runsOf ts p = pairUp (timesOf false p es) (timesOf true p es) := (play_inv es ts h).1 p

/-- C39: a history goes through iff no path ever has more exits than enters. -/
theorem C39_succeeds (es : List (Bool × Str × Int)) :
    (∃ ts, playTimes es [] = .ok ts) ↔
      ∀ p A B, es = A ++ B → (timesOf true p A).length ≤ (timesOf false p A).length := by
  constructor
  · rintro ⟨ts, h⟩ p A B rfl
    have : ∃ u, playTimes A [] = .ok u := by
      unfold playTimes at h ⊢
      rw [List.foldlM_append] at h
      cases hA : List.foldlM (fun (ts : Times) (e : Bool × Str × Int) =>
          if e.1 then exit ts e.2.1 e.2.2 else Except.ok (enter ts e.2.1 e.2.2)) [] A with
      | error _ => rw [hA] at h; cases h
      | ok u => exact ⟨u, rfl⟩
    obtain ⟨u, hu⟩ := this
    exact (play_inv A u hu).2 p
  · induction es using Legacy.snocInduct with
    | nil => intro _; exact ⟨[], rfl⟩
    | snoc es e ih =>
      intro h
      obtain ⟨u, hu⟩ := ih (fun p A B hAB => h p A (B ++ [e]) (by rw [hAB]; simp))
      obtain ⟨x, q, t⟩ := e
      rw [playTimes_snoc, hu]
      cases x with
      | false => exact ⟨_, rfl⟩
      | true =>
        obtain ⟨i1, i2⟩ := play_inv es u hu
        have h1 := h q (es ++ [(true, q, t)]) [] (by simp)
        rw [timesOf_append, timesOf_append, timesOf_single, timesOf_single] at h1
        simp at h1
        have hr := closeFirst_runs u q t
        rw [i1, closeRuns_pairUp _ _ _ (i2 q), if_pos (by omega)] at hr
        cases hc : closeFirst q t u with
        | none => rw [hc] at hr; cases hr
        | some v =>
          refine ⟨v, ?_⟩
          simp only [Except.bind, if_true]
          unfold exit
          rw [hc]

/-- C39: an exit without an open run is an error, and which one. -/
theorem C39_unmatched (es : List (Bool × Str × Int)) (ts : Times) (h : playTimes es [] = .ok ts) (p : Str) (t : Int)
    (hm : (timesOf true p es).length = (timesOf false p es).length) :
    exit ts p t = .error (if timesOf false p es = [] then .keyError else .valueError) := by
  obtain ⟨i1, i2⟩ := play_inv es ts h
  have hr := closeFirst_runs ts p t
  rw [i1, closeRuns_pairUp _ _ _ (i2 p), if_neg (by omega)] at hr
  have hc : closeFirst p t ts = none := by
    cases hc : closeFirst p t ts with
    | none => rfl
    | some v => rw [hc] at hr; cases hr
  unfold exit
  rw [hc, i1]
  simp only [pairUp_eq_nil]
  split <;> rfl

/-- C39: once all runs of a path have ended its run time is last exit minus last enter. -/
theorem C39_run_time (es : List (Bool × Str × Int)) (ts : Times) (h : playTimes es [] = .ok ts) (p : Str)
    (as bs : List Int) (a b : Int) (ha : timesOf false p es = as ++ [a]) (hb : timesOf true p es = bs ++ [b])
    (hl : bs.length = as.length) : runTime ts p = .ok (b - a) := by
  unfold runTime
  rw [C39_pairs es ts h p, ha, hb, pairUp_last as bs a b hl, List.getLast?_concat]

/-- C39 fails while a run is open: the exit closes the oldest open run, so after a nested run of the same
node has ended, asking for its run time is a type error. -/
theorem C39_nested_violation (es : List (Bool × Str × Int)) (ts : Times) (h : playTimes es [] = .ok ts) (p : Str)
    (hl : (timesOf true p es).length < (timesOf false p es).length) : runTime ts p = .error .typeError := by
  obtain ⟨i1, -⟩ := play_inv es ts h
  unfold runTime
  rw [i1]
  generalize timesOf false p es = as at hl
  generalize timesOf true p es = bs at hl
  have : ∃ l a, pairUp as bs = l ++ [(a, none)] := by
    induction as generalizing bs with
    | nil => simp at hl
    | cons x as ih =>
      cases bs with
      | cons b bs =>
        obtain ⟨l, a, e⟩ := ih bs (by simpa using hl)
        exact ⟨(x, some b) :: l, a, by rw [pairUp, e]; rfl⟩
      | nil =>
        cases as with
        | nil => exact ⟨[], x, rfl⟩
        | cons y as =>
          obtain ⟨l, a, e⟩ := ih [] (by simp)
          exact ⟨(x, none) :: l, a, by rw [pairUp, e]; rfl⟩
  obtain ⟨l, a, e⟩ := this
  rw [e, List.getLast?_concat]

/-- C39: `was_during_node_exec` always answers, yes iff some run holds the time. -/
theorem C39_was_during (ts : Times) (t : Int) : wasDuring ts t ≠ none ∧
    (wasDuring ts t = some true ↔ ∃ p a b, (p, a, b) ∈ ts ∧ a ≤ t ∧ ∀ e, b = some e → t ≤ e) := by
  have key : ∀ l : Times, wasDuring.go t l ≠ none ∧
      (wasDuring.go t l = some true ↔ ∃ p a b, (p, a, b) ∈ l ∧ a ≤ t ∧ ∀ e, b = some e → t ≤ e) := by
    intro l
    induction l with
    | nil => simp [wasDuring.go]
    | cons e l ih =>
      obtain ⟨p, a, b⟩ := e
      have skip : (¬ (a ≤ t ∧ ∀ e, b = some e → t ≤ e)) →
          ((∃ p' a' b', (p', a', b') ∈ (p, a, b) :: l ∧ a' ≤ t ∧ ∀ e, b' = some e → t ≤ e) ↔
            ∃ p' a' b', (p', a', b') ∈ l ∧ a' ≤ t ∧ ∀ e, b' = some e → t ≤ e) := by
        intro hn
        constructor
        · rintro ⟨p', a', b', hm, h1, h2⟩
          rcases List.mem_cons.1 hm with he | hm
          · cases he; exact absurd ⟨h1, h2⟩ hn
          · exact ⟨p', a', b', hm, h1, h2⟩
        · rintro ⟨p', a', b', hm, h1, h2⟩
          exact ⟨p', a', b', List.mem_cons_of_mem _ hm, h1, h2⟩
      rw [wasDuring.go.eq_def]
      simp only
      split
      · rename_i h
        refine ⟨by simp, fun _ => ⟨p, a, b, List.mem_cons_self, h.1, ?_⟩, fun _ => rfl⟩
        intro e he; rw [h.2] at he; cases he
      · rename_i h
        split
        · rename_i ha
          cases b with
          | none => exact absurd ⟨ha, rfl⟩ h
          | some b =>
            simp only
            split
            · rename_i hb
              refine ⟨by simp, fun _ => ⟨p, a, some b, List.mem_cons_self, ha, ?_⟩, fun _ => rfl⟩
              intro e he; cases he; exact hb
            · rename_i hb
              rw [skip (fun hh => hb (hh.2 b rfl))]
              exact ih
        · rename_i ha
          rw [skip (fun hh => ha hh.1)]
          exact ih
  obtain ⟨k1, k2⟩ := key ts.reverse
  refine ⟨k1, ?_⟩
  unfold wasDuring
  rw [k2]
  simp only [List.mem_reverse]

/-- Node `a` runs twice, `b` inside the second run. -/
example :
    let es := [(false, "a".toList, 1), (true, "a".toList, 4), (false, "a".toList, 5), (false, "b".toList, 6),
      (true, "b".toList, 7), (true, "a".toList, 9)]
    ∃ ts, playTimes es [] = .ok ts ∧ runsOf ts "a".toList = [(1, some 4), (5, some 9)] ∧
      timesOf false "a".toList es = [1] ++ [5] ∧ timesOf true "a".toList es = [4] ++ [9] := by
  refine ⟨_, rfl, ?_⟩
  decide +kernel

/-- Nested runs of the same node. -/
example :
    let es := [(false, "a".toList, 1), (false, "a".toList, 2), (true, "a".toList, 3)]
    ∃ ts, playTimes es [] = .ok ts ∧ runsOf ts "a".toList = [(1, some 3), (2, none)] ∧
      (timesOf true "a".toList es).length < (timesOf false "a".toList es).length := by
  refine ⟨_, rfl, ?_⟩
  decide +kernel

/-! ## C38 -/

/-- How one node of the loop is run: its run ends and can be timed. -/
theorem loop_node {σ : Type} (run : Str → σ → Times → Outcome × σ × Times) (hk : KeepsTimes run) (clock : σ → Int)
    (p : Str) (s : σ) (ts : Times) (hc : AllClosed ts) :
    let r := run p s (enter ts p (clock s))
    ∃ more d, exit r.2.2 p (clock r.2.1) = .ok (ts ++ (p, clock s, some (clock r.2.1)) :: more) ∧
      AllClosed (ts ++ (p, clock s, some (clock r.2.1)) :: more) ∧
      runTime (ts ++ (p, clock s, some (clock r.2.1)) :: more) p = .ok d := by
  intro r
  obtain ⟨more, h1, h2⟩ := hk p s (enter ts p (clock s))
  have hcl : AllClosed (ts ++ (p, clock s, some (clock r.2.1)) :: more) := by
    rw [allClosed_append]
    refine ⟨hc, fun e he => ?_⟩
    rcases List.mem_cons.1 he with rfl | he
    · simp
    · exact h2 e he
  have hex : exit r.2.2 p (clock r.2.1) = .ok (ts ++ (p, clock s, some (clock r.2.1)) :: more) := by
    have : r.2.2 = ts ++ (p, clock s, none) :: more := by
      show (run p s _).2.2 = _
      rw [h1]; unfold enter; simp
    unfold exit
    rw [this, closeFirst_closed hc, closeFirst, if_pos ⟨rfl, rfl⟩]
    rfl
  refine ⟨more, ?_⟩
  have : ∃ d, runTime (ts ++ (p, clock s, some (clock r.2.1)) :: more) p = .ok d := by
    unfold runTime
    cases hg : (runsOf (ts ++ (p, clock s, some (clock r.2.1)) :: more) p).getLast? with
    | none =>
      exfalso
      rw [List.getLast?_eq_none_iff] at hg
      have : (clock s, some (clock r.2.1)) ∈ runsOf (ts ++ (p, clock s, some (clock r.2.1)) :: more) p := by
        unfold runsOf
        exact List.mem_map.2 ⟨(p, clock s, some (clock r.2.1)), List.mem_filter.2 ⟨by simp, by simp⟩, rfl⟩
      rw [hg] at this; cases this
    | some e =>
      obtain ⟨a, b⟩ := e
      cases b with
      | some b => exact ⟨b - a, rfl⟩
      | none =>
        exfalso
        have hm := List.mem_of_getLast? hg
        unfold runsOf at hm
        obtain ⟨e, he, h'⟩ := List.mem_map.1 hm
        have := hcl e (List.mem_filter.1 he).1
        rw [h'] at this
        exact this rfl
  obtain ⟨d, hd⟩ := this
  exact ⟨d, hex, hcl, hd⟩

/-- C38: the loop over `ps`.  Of the nodes which are not switched off a first part runs, in order and each
from the state the one before left; all but the last of them end normally or by leaving the node.  If all
of them do so the loop ends normally after all nodes, or at the first missing one; otherwise the loop ends
with what stopped the last.  Every run has its exit time. -/
theorem C38_loop {σ : Type} (look : σ → Str → Option Val) (run : Str → σ → Times → Outcome × σ × Times)
    (clock : σ → Int) (hk : KeepsTimes run) (hl : ∀ p s ts, look (run p s ts).2.1 = look s) (ps : List Str) (s : σ)
    (ts : Times) (hc : AllClosed ts) (e : End) (s' : σ) (ts' : Times) (tr : List (Str × Outcome))
    (h : execLoop look run clock ps s ts = (e, s', ts', tr)) :
    RunChain run s tr s' ∧
    (∃ added, ts' = ts ++ added ∧ AllClosed ts' ∧ ∀ x ∈ tr, ∃ a b, (x.1, a, some b) ∈ added) ∧
    ∃ A B, ps = A ++ B ∧ (∀ p ∈ A, look s p ≠ none) ∧
      tr.map (fun x => x.1) = A.filter (fun p => notOff (look s p)) ∧
      ((e = .done ∧ B = [] ∧ ∀ x ∈ tr, x.2 = .ok ∨ x.2 = .exitNode) ∨
       (e = .invalidNode ∧ (∃ p B', B = p :: B' ∧ look s p = none) ∧ ∀ x ∈ tr, x.2 = .ok ∨ x.2 = .exitNode) ∨
       ∃ tr' x, tr = tr' ++ [x] ∧ A.getLast? = some x.1 ∧ (∀ y ∈ tr', y.2 = .ok ∨ y.2 = .exitNode) ∧
        ((e = .exitGraph ∧ x.2 = .exitGraph) ∨ (e = .error ∧ x.2 = .error))) := by
  induction ps generalizing s ts e s' ts' tr with
  | nil =>
    simp only [execLoop, Prod.mk.injEq] at h
    obtain ⟨rfl, rfl, rfl, rfl⟩ := h
    refine ⟨.nil, ⟨[], by simp, hc, by simp⟩, [], [], rfl, by simp, rfl, .inl ⟨rfl, rfl, by simp⟩⟩
  | cons p ps ih =>
    rw [execLoop] at h
    split at h
    · rename_i hp
      obtain ⟨i1, i2, A, B, rfl, i3, i4, i5⟩ := ih s ts hc e s' ts' tr h
      refine ⟨i1, i2, p :: A, B, rfl, ?_, ?_, ?_⟩
      · intro q hq
        rcases List.mem_cons.1 hq with rfl | hq
        · rw [hp]; simp
        · exact i3 q hq
      · rw [List.filter_cons_of_neg (by rw [hp]; simp [notOff]), i4]
      · rcases i5 with i5 | i5 | ⟨tr', x, a1, a2, a3⟩
        · exact .inl i5
        · exact .inr (.inl i5)
        · refine .inr (.inr ⟨tr', x, a1, ?_, a3⟩)
          rw [List.getLast?_cons, a2]; rfl
    · rename_i hp
      simp only [Prod.mk.injEq] at h
      obtain ⟨rfl, rfl, rfl, rfl⟩ := h
      exact ⟨.nil, ⟨[], by simp, hc, by simp⟩, [], p :: ps, rfl, by simp, rfl,
        .inr (.inl ⟨rfl, ⟨p, ps, rfl, hp⟩, by simp⟩)⟩
    · rename_i v hv hp
      have hkeep : notOff (look s p) = true := by
        rw [hp]
        unfold notOff
        split
        · rename_i hv'; cases hv'; exact absurd rfl hv
        · rfl
      simp only at h
      obtain ⟨more, d, n1, n2, n3⟩ := loop_node run hk clock p s ts hc
      rw [n1] at h
      simp only [n3] at h
      have stop : ∀ o, (run p s (enter ts p (clock s))).1 = o →
          (e, s', ts', tr) = (e, (run p s (enter ts p (clock s))).2.1, ts ++ (p, clock s, some (clock
            (run p s (enter ts p (clock s))).2.1)) :: more, [(p, (run p s (enter ts p (clock s))).1)]) →
          ((e = .exitGraph ∧ o = .exitGraph) ∨ (e = .error ∧ o = .error)) →
          RunChain run s tr s' ∧
          (∃ added, ts' = ts ++ added ∧ AllClosed ts' ∧ ∀ x ∈ tr, ∃ a b, (x.1, a, some b) ∈ added) ∧
          ∃ A B, p :: ps = A ++ B ∧ (∀ p ∈ A, look s p ≠ none) ∧
            tr.map (fun x => x.1) = A.filter (fun p => notOff (look s p)) ∧
            ((e = .done ∧ B = [] ∧ ∀ x ∈ tr, x.2 = .ok ∨ x.2 = .exitNode) ∨
             (e = .invalidNode ∧ (∃ p B', B = p :: B' ∧ look s p = none) ∧ ∀ x ∈ tr, x.2 = .ok ∨ x.2 = .exitNode) ∨
             ∃ tr' x, tr = tr' ++ [x] ∧ A.getLast? = some x.1 ∧ (∀ y ∈ tr', y.2 = .ok ∨ y.2 = .exitNode) ∧
              ((e = .exitGraph ∧ x.2 = .exitGraph) ∨ (e = .error ∧ x.2 = .error))) := by
        intro o ho heq he
        simp only [Prod.mk.injEq, true_and] at heq
        obtain ⟨rfl, rfl, rfl⟩ := heq
        refine ⟨.cons .nil, ⟨_, rfl, n2, ?_⟩, [p], ps, rfl, ?_, ?_, .inr (.inr ⟨[], _, rfl, rfl, by simp, ?_⟩)⟩
        · intro x hx
          rw [List.mem_singleton] at hx
          subst hx
          exact ⟨_, _, List.mem_cons_self⟩
        · intro q hq
          rw [List.mem_singleton] at hq
          rw [hq, hp]; simp
        · rw [List.filter_cons_of_pos (by exact hkeep)]; rfl
        · simp only [ho]; exact he
      split at h
      · rename_i ho
        have he : e = .exitGraph := by cases h; rfl
        refine stop _ ho ?_ (.inl ⟨he, rfl⟩)
        rw [← h]; cases h; rfl
      · rename_i ho
        have he : e = .error := by cases h; rfl
        refine stop _ ho ?_ (.inr ⟨he, rfl⟩)
        rw [← h]; cases h; rfl
      · rename_i ho1 ho2
        have ho : (run p s (enter ts p (clock s))).1 = .ok ∨ (run p s (enter ts p (clock s))).1 = .exitNode := by
          cases hh : (run p s (enter ts p (clock s))).1
          · exact .inl rfl
          · exact .inr rfl
          · exact absurd hh ho1
          · exact absurd hh ho2
        generalize hr : execLoop look run clock ps _ _ = rest at h
        obtain ⟨e1, s1, t1, tr1⟩ := rest
        simp only [Prod.mk.injEq] at h
        obtain ⟨rfl, rfl, rfl, rfl⟩ := h
        obtain ⟨i1, ⟨added, j1, j2, j3⟩, A, B, rfl, i3, i4, i5⟩ := ih _ _ n2 _ _ _ _ hr
        rw [hl] at i3 i4 i5
        refine ⟨.cons i1, ⟨_, by rw [j1, List.append_assoc], j2, ?_⟩, p :: A, B, rfl, ?_, ?_, ?_⟩
        · intro x hx
          rcases List.mem_cons.1 hx with rfl | hx
          · exact ⟨_, _, List.mem_append_left _ List.mem_cons_self⟩
          · obtain ⟨a, b, hab⟩ := j3 x hx
            exact ⟨a, b, by simp [hab]⟩
        · intro q hq
          rcases List.mem_cons.1 hq with rfl | hq
          · rw [hp]; simp
          · exact i3 q hq
        · rw [List.filter_cons_of_pos (by exact hkeep), List.map_cons, i4]
        · rcases i5 with ⟨a1, a2, a3⟩ | ⟨a1, a2, a3⟩ | ⟨tr', x, a1, a2, a3, a4⟩
          · refine .inl ⟨a1, a2, fun x hx => ?_⟩
            rcases List.mem_cons.1 hx with rfl | hx
            · exact ho
            · exact a3 x hx
          · refine .inr (.inl ⟨a1, a2, fun x hx => ?_⟩)
            rcases List.mem_cons.1 hx with rfl | hx
            · exact ho
            · exact a3 x hx
          · refine .inr (.inr ⟨_ :: tr', x, by rw [a1]; rfl, ?_, ?_, a4⟩)
            · rw [List.getLast?_cons, a2]; rfl
            · intro y hy
              rcases List.mem_cons.1 hy with rfl | hy
              · exact ho
              · exact a3 y hy

/-- C38 fails when a node is executed from inside its own run: the exit of the inner run ends the outer one's
clock, and the run time of the inner one is a type error. -/
theorem C38_reentry_violation {σ : Type} (look : σ → Str → Option Val)
    (run : Str → σ → Times → Outcome × σ × Times) (clock : σ → Int) (p : Str) (ps : List Str) (s : σ) (ts : Times)
    (hc : AllClosed ts) (a : Int) (v : Val) (hv : look s p = some v) (hv' : v ≠ .bool false)
    (hk : ∀ ts, (run p s ts).2.2 = ts) :
    (execLoop look run clock (p :: ps) s (ts ++ [(p, a, none)])).1 = .timeError := by
  rw [execLoop]
  split
  · rename_i h; rw [hv] at h; cases h; exact absurd rfl hv'
  · rename_i h; rw [hv] at h; cases h
  · simp only
    rw [hk]
    have e : ∀ t : Int, exit (enter (ts ++ [(p, a, none)]) p (clock s)) p t =
        .ok (ts ++ [(p, a, some t), (p, clock s, none)]) := by
      intro t
      unfold exit enter
      rw [List.append_assoc, closeFirst_closed hc]
      simp [closeFirst]
    rw [e]
    simp only
    have e2 : ∀ t : Int, runTime (ts ++ [(p, a, some t), (p, clock s, none)]) p = .error .typeError := by
      intro t
      unfold runTime runsOf
      rw [List.filter_append]
      simp
    rw [e2]

/-- Four nodes: the first leaves the node, the second is switched off, the third leaves the graph. -/
example :
    let look : Nat → Str → Option Val := fun _ p => some (if p = "b".toList then .bool false else .none)
    let run : Str → Nat → Times → Outcome × Nat × Times := fun p s ts =>
      (if p = "a".toList then .exitNode else if p = "c".toList then .exitGraph else .ok, s + 1, ts)
    let r := execLoop look run (fun s => s) ["a".toList, "b".toList, "c".toList, "d".toList] 5 []
    KeepsTimes run ∧ (∀ p s ts, look (run p s ts).2.1 = look s) ∧
    r.1 = .exitGraph ∧ r.2.1 = 7 ∧ r.2.2.2 = [("a".toList, .exitNode), ("c".toList, .exitGraph)] ∧
    r.2.2.1 = [("a".toList, 5, some 6), ("c".toList, 6, some 7)] := by
  refine ⟨fun p s ts => ⟨[], by simp, fun e he => by cases he⟩, fun _ _ _ => rfl, ?_⟩
  decide +kernel

end Nxt.Props
