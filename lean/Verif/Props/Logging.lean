import Verif.Spec.Logging
import Verif.Lemmas.Dict
/-!
# Property C123: log handlers
-/
namespace Nxt.Props
open Dict Spec Logging

namespace LoggingLemmas

/-- Handlers are older than the next one, each is there once, and those recorded for a file write to it. -/
structure Good (s : Logging.St) : Prop where
  nodup : s.handlers.Nodup
  old : ∀ h ∈ s.handlers, h.id < s.next
  fresh : ∀ h : Handler, s.next ≤ h.id → s.level h = 0
  filed : ∀ n h, get? n s.sessions = some h → h.sink = .file n ∧ h.id < s.next
  verb : ∀ h, s.verbose = some h → h.sink = .stderr ∧ h.id < s.next
  plain : ∀ h : Handler, h.sink ≠ .stderr → s.level h = 0

theorem good_add (k : Sink) (s : Logging.St) (g : Good s) : Good (addHandler k s).2 := by
  refine ⟨?_, ?_, ?_, ?_, ?_, g.plain⟩
  · refine List.nodup_append.2 ⟨g.nodup, by simp, ?_⟩
    intro a ha b hb e
    have := g.old a ha
    simp at hb
    subst e hb
    simp at this
  · intro h hh
    simp only [addHandler, List.mem_append, List.mem_singleton] at hh ⊢
    rcases hh with hh | hh
    · have := g.old h hh; omega
    · subst hh; simp
  · intro h hh
    exact g.fresh h (by simp [addHandler] at hh; omega)
  · intro n h hh
    have := g.filed n h hh
    exact ⟨this.1, by simp [addHandler]; omega⟩
  · intro h hh
    have := g.verb h hh
    exact ⟨this.1, by simp [addHandler]; omega⟩

theorem good_remove (h : Handler) (s : Logging.St) (g : Good s) : Good (removeHandler h s) :=
  ⟨g.nodup.erase _, fun a ha => g.old a (List.mem_of_mem_erase ha), g.fresh, g.filed, g.verb, g.plain⟩

theorem good_level (h : Handler) (l : Nat) (s : Logging.St) (hs : h.sink = .stderr) (ho : h.id < s.next)
    (g : Good s) : Good (setLevel h l s) := by
  refine ⟨g.nodup, g.old, ?_, g.filed, g.verb, ?_⟩
  · intro k hk
    have : k ≠ h := by rintro rfl; simp [setLevel] at hk; omega
    simp [setLevel, this]; exact g.fresh k hk
  · intro k hk
    have : k ≠ h := by rintro rfl; exact hk hs
    simp [setLevel, this]; exact g.plain k hk

theorem good_verbosity (v : Verbosity) (s : Logging.St) (g : Good s) : Good (setVerbosity v s).2 := by
  cases v with
  | socket => exact good_add _ _ g
  | num n =>
    simp only [setVerbosity]
    by_cases h0 : n = 0
    · simp only [h0, if_true]
      cases hv : s.verbose with
      | none => simpa [hv] using g
      | some h => exact good_remove _ _ g
    · by_cases hp : n > 0
      · simp only [h0, if_false, hp, if_true]
        cases hv : s.verbose with
        | none =>
          simp only
          split
          · exact good_level _ _ _ rfl (by simp [addHandler]) (good_add _ _ g)
          · exact good_add _ _ g
        | some h =>
          simp only
          split
          · exact good_level _ _ _ (g.verb h hv).1 (g.verb h hv).2 g
          · exact g
      · simpa [h0, hp] using g

theorem good_make (n : Str) (s : Logging.St) (g : Good s) : Good (makeLog n s) := by
  have g' := good_add (.file n) s g
  refine ⟨g'.nodup, g'.old, g'.fresh, ?_, g'.verb, g'.plain⟩
  intro m h hh
  simp only [makeLog] at hh
  rw [get?_set] at hh
  split at hh
  · rename_i e
    cases hh
    subst e
    exact ⟨rfl, by simp [makeLog, addHandler]⟩
  · exact g'.filed m h hh

theorem good_stop (n : Str) (s : Logging.St) (g : Good s) : Good (stopLog n s) := by
  unfold stopLog
  split
  · exact g
  · exact good_remove _ _ g

theorem good_step (r : Req) (s : Logging.St) (g : Good s) : Good (step s r) := by
  cases r with
  | verbosity v => exact good_verbosity v s g
  | make n => exact good_make n s g
  | stop n => exact good_stop n s g

theorem good_empty : Good { handlers := [], level := fun _ => 0, verbose := none, sessions := [], next := 0 } :=
  ⟨by simp, by simp, by simp, by simp [get?], by simp, by simp⟩

theorem good_init (env : Option Verbosity) : Good (initialSetup env) := by
  have g0 := good_add .null _ good_empty
  cases env with
  | none => exact g0
  | some v =>
    have g := good_verbosity v _ g0
    refine ⟨g.nodup, g.old, g.fresh, g.filed, ?_, g.plain⟩
    intro h hh
    cases v with
    | socket => simp [initialSetup, setVerbosity] at hh
    | num n =>
      simp only [initialSetup, setVerbosity, addHandler] at hh ⊢
      by_cases h0 : n = 0
      · simp [h0] at hh
      · by_cases hp : n > 0
        · simp only [h0, hp, if_true, if_false] at hh ⊢
          simp only [Option.some.injEq] at hh
          subst hh
          refine ⟨rfl, ?_⟩
          split <;> simp [setLevel]
        · simp [h0, hp] at hh

theorem good_run (rs : List Req) : ∀ s, Good s → Good (rs.foldl step s) := by
  induction rs with
  | nil => exact fun s g => g
  | cons r rs ih => exact fun s g => ih _ (good_step r s g)

theorem written_eq (k : Sink) (l : Nat) (s : Logging.St) :
    written k l s = if l < 10 then 0 else s.handlers.countP (fun h => decide (h.sink = k) && decide (s.level h ≤ l)) := by
  simp [written, DEBUG]

theorem countP_erase {α : Type} [DecidableEq α] (p : α → Bool) (a : α) (l : List α) (h : a ∈ l) :
    (l.erase a).countP p + (if p a then 1 else 0) = l.countP p := by
  rw [(List.perm_cons_erase h).countP_eq p, List.countP_cons]

theorem written_add (k k' : Sink) (l : Nat) (s : Logging.St) (g : Good s) :
    written k l (addHandler k' s).2 = written k l s + (if k' = k ∧ 10 ≤ l then 1 else 0) := by
  have h0 : s.level ⟨s.next, k'⟩ = 0 := g.fresh _ (Nat.le_refl _)
  simp only [written_eq, addHandler, List.countP_append]
  by_cases hl : l < 10
  · simp [hl]
  · have : 10 ≤ l := by omega
    simp [hl, h0, this, List.countP_cons]

theorem written_remove (k : Sink) (l : Nat) (h : Handler) (s : Logging.St) :
    written k l (removeHandler h s) + (if h ∈ s.handlers ∧ h.sink = k ∧ s.level h ≤ l ∧ 10 ≤ l then 1 else 0) =
      written k l s := by
  simp only [written_eq, removeHandler]
  by_cases hl : l < 10
  · simp [hl]
  · have hl' : 10 ≤ l := by omega
    by_cases hm : h ∈ s.handlers
    · have := countP_erase (fun h => decide (h.sink = k) && decide (s.level h ≤ l)) h s.handlers hm
      simp [hl, hm, hl']
      simpa using this
    · simp [hl, List.erase_of_not_mem hm, hm]

/-- Setting the level of a handler leaves the sinks of the others alone. -/
theorem written_level (k : Sink) (l l' : Nat) (h : Handler) (s : Logging.St) (hk : h.sink ≠ k ∨ h ∉ s.handlers) :
    written k l (setLevel h l' s) = written k l s := by
  simp only [written_eq, setLevel]
  congr 1
  apply List.countP_congr
  intro a ha
  by_cases e : a = h
  · subst e
    rcases hk with hk | hk
    · simp [hk]
    · exact absurd ha hk
  · simp [e]

/-- A new handler with its level. -/
theorem written_new (l l' : Nat) (s : Logging.St) (g : Good s) :
    written .stderr l (setLevel (addHandler .stderr s).1 l' (addHandler .stderr s).2) =
      written .stderr l s + (if l' ≤ l ∧ 10 ≤ l then 1 else 0) := by
  have hn : (⟨s.next, .stderr⟩ : Handler) ∉ s.handlers := fun hm => by
    have := g.old _ hm
    simp at this
  have e := written_level .stderr l l' ⟨s.next, .stderr⟩ s (.inr hn)
  simp only [written_eq, addHandler, setLevel, List.countP_append] at e ⊢
  by_cases hl : l < 10
  · simp [hl]
    try omega
  · have hl' : 10 ≤ l := by omega
    simp only [hl, if_false] at e ⊢
    refine (congrArg (· + _) e).trans ?_
    simp [List.countP_cons, hl']

/-- Verbosity and the sinks other than stderr and the socket. -/
theorem verbosity_others (k : Sink) (l : Nat) (v : Verbosity) (s : Logging.St) (g : Good s) (hk : k ≠ .stderr) :
    written k l (setVerbosity v s).2 =
      written k l s + (match v with | .socket => if k = .socket ∧ 10 ≤ l then 1 else 0 | .num _ => 0) := by
  cases v with
  | socket =>
    simp only [setVerbosity]
    rw [written_add _ _ _ _ g]
    simp [eq_comm]
  | num n =>
    simp only [setVerbosity]
    by_cases h0 : n = 0
    · simp only [h0, if_true]
      cases hv : s.verbose with
      | none => simp
      | some h =>
        have := written_remove k l h s
        have hs := (g.verb h hv).1
        simp only [hs, hk.symm, false_and, and_false, if_false] at this
        simpa using this
    · by_cases hp : n > 0
      · simp only [h0, if_false, hp, if_true]
        cases hv : s.verbose with
        | none =>
          have ea := written_add k .stderr l s g
          simp only [hk.symm, false_and, if_false] at ea
          simp only
          split
          · rw [written_level _ _ _ _ _ (.inl (by simpa [addHandler] using hk.symm)), ea]
          · rw [ea]
        | some h =>
          simp only
          split
          · rw [written_level _ _ _ _ _ (.inl (by rw [(g.verb h hv).1]; exact hk.symm))]
            simp
          · simp
      · simp [h0, hp]

theorem written_make (k : Sink) (l : Nat) (n : Str) (s : Logging.St) (g : Good s) :
    written k l (makeLog n s) = written k l s + (if .file n = k ∧ 10 ≤ l then 1 else 0) :=
  written_add k (.file n) l s g

theorem written_stop (k : Sink) (l : Nat) (n : Str) (s : Logging.St) (g : Good s) (hk : k ≠ .file n) :
    written k l (stopLog n s) = written k l s := by
  unfold stopLog
  split
  · rfl
  · rename_i h hh
    have := written_remove k l h s
    simp only [(g.filed n h hh).1, hk.symm, false_and, and_false, if_false] at this
    simpa using this

theorem verbose_step (r : Req) (s : Logging.St) : (step s r).verbose = s.verbose := by
  cases r with
  | verbosity v =>
    cases v with
    | socket => rfl
    | num n =>
      simp only [step, setVerbosity]
      by_cases h0 : n = 0
      · simp only [h0, if_true]
        cases hv : s.verbose with
        | none => simpa using hv
        | some h => simpa [removeHandler] using hv
      · by_cases hp : n > 0
        · simp only [h0, if_false, hp, if_true]
          cases hv : s.verbose with
          | none =>
            simp only
            split <;> simpa [setLevel, addHandler] using hv
          | some h =>
            simp only
            split <;> simpa [setLevel] using hv
        · simp [h0, hp]
  | make n => rfl
  | stop n =>
    simp only [step, stopLog]
    split <;> rfl

/-- Without a handler on record each verbosity adds what is due at it. -/
theorem stacked_step (l : Nat) (r : Req) (s : Logging.St) (g : Good s) (hv : s.verbose = none) :
    written .stderr l (step s r) = written .stderr l s + ((askedFor [r]).map (fun n => Due n l)).sum := by
  cases r with
  | make n =>
    simp only [step]
    rw [written_make _ _ _ _ g]
    simp [askedFor]
  | stop n =>
    simp only [step]
    rw [written_stop _ _ _ _ g (by simp)]
    simp [askedFor]
  | verbosity v =>
    cases v with
    | socket =>
      simp only [step, setVerbosity]
      rw [written_add _ _ _ _ g]
      simp [askedFor]
    | num n =>
      have hd : ((askedFor [.verbosity (.num n)]).map (fun n => Due n l)).sum = Due n l := by simp [askedFor]
      rw [hd]
      simp only [step, setVerbosity, hv]
      by_cases h0 : n = 0
      · simp [h0, Due]
      · by_cases hp : n > 0
        · simp only [h0, if_false, hp, if_true]
          have hp' : ¬ n ≤ 0 := by omega
          by_cases h1 : n = 1
          · simp only [h1, if_true]
            rw [written_new _ _ _ g]
            simp only [EXECINFO, Due]
            have : (18 ≤ l ∧ 10 ≤ l) ↔ 18 ≤ l := by omega
            simp [this]
          · simp only [h1, if_false]
            rw [written_add _ _ _ _ g]
            simp [Due, hp', h1]
        · have hp' : n ≤ 0 := by omega
          simp [h0, hp, Due, hp']

theorem askedFor_cons (r : Req) (rs : List Req) : askedFor (r :: rs) = askedFor [r] ++ askedFor rs := by
  simp only [askedFor, List.filterMap_cons, List.filterMap_nil]
  split <;> simp

theorem stacked_run (l : Nat) (rs : List Req) : ∀ s, Good s → s.verbose = none →
    written .stderr l (rs.foldl step s) = written .stderr l s + ((askedFor rs).map (fun n => Due n l)).sum := by
  induction rs with
  | nil => intro s _ _; simp [askedFor]
  | cons r rs ih =>
    intro s g hv
    rw [List.foldl_cons, ih _ (good_step r s g) (by rw [verbose_step, hv]), stacked_step l r s g hv, askedFor_cons r rs,
      List.map_append, List.sum_append]
    omega

/-- With a handler on record: it is the only one for stderr, it is there until verbosity 0 was asked for, and
its level is 18 once verbosity 1 was. -/
structure Held (v : Handler) (zero one : Bool) (s : Logging.St) : Prop where
  verb : s.verbose = some v
  only : ∀ h ∈ s.handlers, h.sink = .stderr → h = v
  there : v ∈ s.handlers ↔ zero = false
  lev : s.level v = if one then 18 else 0

theorem held_add (v : Handler) (zero one : Bool) (k : Sink) (hk : k ≠ .stderr) (s : Logging.St) (g : Good s)
    (e : Held v zero one s) : Held v zero one (addHandler k s).2 := by
  have hv := g.verb v e.verb
  refine ⟨e.verb, ?_, ?_, e.lev⟩
  · intro h hm hs
    simp only [addHandler, List.mem_append, List.mem_singleton] at hm
    rcases hm with hm | hm
    · exact e.only h hm hs
    · subst hm; exact absurd hs hk
  · rw [← e.there]
    simp only [addHandler, List.mem_append, List.mem_singleton]
    constructor
    · rintro (hm | hm)
      · exact hm
      · rw [hm] at hv; exact absurd hv.1 hk
    · exact .inl

theorem held_remove (v : Handler) (zero one : Bool) (h : Handler) (hk : h.sink ≠ .stderr) (s : Logging.St) (g : Good s)
    (e : Held v zero one s) : Held v zero one (removeHandler h s) := by
  have hv := g.verb v e.verb
  refine ⟨e.verb, fun a ha => e.only a (List.mem_of_mem_erase ha), ?_, e.lev⟩
  rw [← e.there]
  have : v ≠ h := by rintro rfl; exact hk hv.1
  exact List.mem_erase_of_ne this

theorem held_step (v : Handler) (zero one : Bool) (r : Req) (s : Logging.St) (g : Good s) (e : Held v zero one s) :
    Held v (zero || (askedFor [r]).contains 0) (one || (askedFor [r]).contains 1) (step s r) := by
  cases r with
  | make n =>
    have := held_add v zero one (.file n) (by simp) s g e
    simpa [askedFor, step] using (⟨this.verb, this.only, this.there, this.lev⟩ : Held v zero one (makeLog n s))
  | stop n =>
    have : Held v zero one (stopLog n s) := by
      unfold stopLog
      split
      · exact e
      · rename_i h hh
        exact held_remove v zero one h (by rw [(g.filed n h hh).1]; simp) s g e
    simpa [askedFor, step] using this
  | verbosity w =>
    cases w with
    | socket => simpa [askedFor, step, setVerbosity] using held_add v zero one .socket (by simp) s g e
    | num n =>
      have ha : askedFor [.verbosity (.num n)] = [n] := rfl
      simp only [ha, step, setVerbosity, e.verb, List.contains_cons, List.contains_nil, Bool.or_false]
      by_cases h0 : n = 0
      · subst h0
        simp only [if_true]
        refine ⟨e.verb, fun a ha => e.only a (List.mem_of_mem_erase ha), ?_, by simpa [removeHandler] using e.lev⟩
        simp only [removeHandler, g.nodup.mem_erase_iff]
        simp
      · have hz : ((0 : Int) == n) = false := by simp; omega
        simp only [h0, if_false, hz, Bool.or_false]
        by_cases hp : n > 0
        · simp only [hp, if_true]
          by_cases h1 : n = 1
          · subst h1
            simp only [if_true]
            refine ⟨e.verb, e.only, e.there, ?_⟩
            simp [setLevel, EXECINFO]
          · have hz : ((1 : Int) == n) = false := by simp; omega
            simpa [h1, hz] using e
        · have hz : ((1 : Int) == n) = false := by simp; omega
          simpa [hp, hz] using e

theorem held_run (v : Handler) (rs : List Req) : ∀ zero one s, Good s → Held v zero one s →
    Held v (zero || (askedFor rs).contains 0) (one || (askedFor rs).contains 1) (rs.foldl step s) := by
  induction rs with
  | nil => intro zero one s _ e; simpa [askedFor] using e
  | cons r rs ih =>
    intro zero one s g e
    have := ih _ _ _ (good_step r s g) (held_step v zero one r s g e)
    rw [askedFor_cons r rs]
    simpa [Bool.or_assoc] using this

theorem held_written (v : Handler) (zero one : Bool) (l : Nat) (s : Logging.St) (g : Good s) (e : Held v zero one s) :
    written .stderr l s = if zero then 0 else if one then (if 18 ≤ l then 1 else 0) else (if 10 ≤ l then 1 else 0) := by
  have hv := g.verb v e.verb
  have key : s.handlers.countP (fun h => decide (h.sink = .stderr) && decide (s.level h ≤ l)) =
      if v ∈ s.handlers ∧ s.level v ≤ l then 1 else 0 := by
    have h1 : s.handlers.countP (fun h => decide (h.sink = .stderr) && decide (s.level h ≤ l)) =
        s.handlers.countP (fun h => decide (s.level v ≤ l) && (h == v)) := by
      apply List.countP_congr
      intro a ha
      by_cases hs : a.sink = .stderr
      · have := e.only a ha hs; subst this; simp [hs]
      · have : a ≠ v := by rintro rfl; exact hs hv.1
        simp [hs, this]
    rw [h1]
    by_cases hl : s.level v ≤ l
    · simp only [hl, decide_true, Bool.true_and, and_true]
      have := g.nodup.count (a := v)
      rw [← this]; rfl
    · simp [hl]
  simp only [written_eq, key, e.there, e.lev]
  cases zero <;> cases one <;> simp <;> (try split) <;> (try split) <;> omega

/-- Verbosity and the handlers of files. -/
theorem verbosity_mem (v : Verbosity) (s : Logging.St) (g : Good s) (h : Handler) (hs : h.sink ≠ .stderr) (hi : h.id < s.next) :
    h ∈ (setVerbosity v s).2.handlers ↔ h ∈ s.handlers := by
  have hadd : ∀ k, h ∈ (addHandler k s).2.handlers ↔ h ∈ s.handlers := by
    intro k
    simp only [addHandler, List.mem_append, List.mem_singleton]
    constructor
    · rintro (hm | hm)
      · exact hm
      · subst hm; simp at hi
    · exact .inl
  cases v with
  | socket => exact hadd _
  | num n =>
    simp only [setVerbosity]
    by_cases h0 : n = 0
    · simp only [h0, if_true]
      cases hv : s.verbose with
      | none => simp
      | some w =>
        have : h ≠ w := by rintro rfl; exact hs (g.verb _ hv).1
        exact List.mem_erase_of_ne this
    · by_cases hp : n > 0
      · simp only [h0, if_false, hp, if_true]
        cases hv : s.verbose with
        | none =>
          simp only
          split
          · exact hadd _
          · exact hadd _
        | some w =>
          simp only
          split <;> simp [setLevel]
      · simp [h0, hp]

theorem verbosity_sessions (v : Verbosity) (s : Logging.St) : (setVerbosity v s).2.sessions = s.sessions := by
  cases v with
  | socket => rfl
  | num n =>
    simp only [setVerbosity]
    by_cases h0 : n = 0
    · simp only [h0, if_true]
      cases s.verbose <;> rfl
    · by_cases hp : n > 0
      · simp only [h0, if_false, hp, if_true]
        cases s.verbose with
        | none =>
          simp only
          split <;> rfl
        | some w =>
          simp only
          split <;> rfl
      · simp [h0, hp]

/-- The files. -/
theorem tally_run (n : Str) (l : Nat) (s : Logging.St) (g : Good s) (h0 : written (.file n) l s = 0) (hn : get? n s.sessions = none)
    (hl : 10 ≤ l) (rs : List Req) :
    Good (rs.foldr (fun r s => step s r) s) ∧
    written (.file n) l (rs.foldr (fun r s => step s r) s) = (tally n rs).1 ∧
    ((tally n rs).2 = true ↔ ∃ h, get? n (rs.foldr (fun r s => step s r) s).sessions = some h ∧
      h ∈ (rs.foldr (fun r s => step s r) s).handlers) := by
  induction rs with
  | nil => exact ⟨g, h0, by simp [tally, hn]⟩
  | cons r rs ih =>
    simp only [List.foldr_cons]
    generalize rs.foldr (fun r s => step s r) s = t at ih
    obtain ⟨gt, hw, hb⟩ := ih
    refine ⟨good_step r t gt, ?_⟩
    cases r with
    | verbosity v =>
      refine ⟨?_, ?_⟩
      · simp only [step, tally]
        rw [verbosity_others _ _ _ _ gt (by simp), hw]
        cases v <;> simp
      · simp only [tally, step, hb, verbosity_sessions]
        refine exists_congr fun h => and_congr_right fun hh => ?_
        exact (verbosity_mem v t gt h (by rw [(gt.filed n h hh).1]; simp) (gt.filed n h hh).2).symm
    | make m =>
      by_cases hm : m = n
      · subst hm
        refine ⟨?_, ?_⟩
        · simp only [step, tally, if_true]
          rw [written_make _ _ _ _ gt, hw]
          simp [hl]
        · simp [tally, step, makeLog, get?_set, addHandler]
      · refine ⟨?_, ?_⟩
        · simp only [step, tally, hm, if_false]
          rw [written_make _ _ _ _ gt, hw]
          simp [hm]
        · simp only [tally, hm, if_false, hb, step, makeLog, get?_set, Ne.symm hm]
          refine exists_congr fun h => and_congr_right fun hh => ?_
          have := gt.filed n h hh
          simp only [addHandler, List.mem_append, List.mem_singleton]
          constructor
          · exact .inl
          · rintro (hm' | hm')
            · exact hm'
            · subst hm'; simp at this
    | stop m =>
      by_cases hm : m = n
      · subst hm
        simp only [step, tally, true_and, stopLog]
        cases hg : get? m t.sessions with
        | none =>
          have : (tally m rs).2 = false := by
            cases h2 : (tally m rs).2 with
            | false => rfl
            | true => obtain ⟨h, hh, _⟩ := hb.1 h2; simp [hg] at hh
          simp [this, hw, hg]
        | some h =>
          have hr := written_remove (.file m) l h t
          have hf := gt.filed m h hg
          have hlv : t.level h = 0 := gt.plain h (by rw [hf.1]; simp)
          simp only [hf.1, hlv, hl, hw, Nat.zero_le, and_true] at hr
          have hb' : (tally m rs).2 = true ↔ h ∈ t.handlers := by
            rw [hb]; simp [hg]
          have hrm : (removeHandler h t).sessions = t.sessions := rfl
          have hno : h ∉ (removeHandler h t).handlers := by
            simp [removeHandler, gt.nodup.mem_erase_iff]
          by_cases hh : h ∈ t.handlers
          · simp only [hh, if_true] at hr
            simp only [hb'.2 hh, if_true, hrm, hg, Option.some.injEq]
            refine ⟨by omega, ?_⟩
            simpa using hno
          · have h2 : (tally m rs).2 = false := by
              cases h2 : (tally m rs).2 with
              | false => rfl
              | true => exact absurd (hb'.1 h2) hh
            simp only [hh, if_false] at hr
            simp only [h2, Bool.false_eq_true, if_false, hrm, hg, Option.some.injEq]
            refine ⟨by omega, ?_⟩
            simpa using hno
      · refine ⟨?_, ?_⟩
        · simp only [step, tally, hm, false_and, if_false]
          rw [written_stop _ _ _ _ gt (by simpa using Ne.symm hm), hw]
        · simp only [tally, hm, false_and, if_false, hb, step, stopLog]
          cases hg : get? m t.sessions with
          | none => simp
          | some k =>
            refine exists_congr fun h => and_congr_right fun hh => ?_
            have : h ≠ k := by
              rintro rfl
              have h1 := (gt.filed n h hh).1
              have h2 := (gt.filed m h hg).1
              rw [h1] at h2
              exact hm (by simpa using h2.symm)
            exact (List.mem_erase_of_ne this).symm

theorem openLog_cons (n : Str) (r : Req) (rs : List Req) :
    OpenLog (rs.reverse ++ [r]) n ↔ r = .make n ∨ (r ≠ .stop n ∧ OpenLog rs.reverse n) := by
  constructor
  · rintro ⟨b, a, e, hn⟩
    rcases List.eq_nil_or_concat a with rfl | ⟨a', x, rfl⟩
    · left
      have := (List.append_inj' e (by simp)).2
      simpa using this
    · right
      have e' : rs.reverse ++ [r] = (b ++ .make n :: a') ++ [x] := by simpa using e
      have h1 := (List.append_inj' e' (by simp)).1
      have h2 := (List.append_inj' e' (by simp)).2
      simp only [List.cons.injEq, and_true] at h2
      subst h2
      simp only [List.concat_eq_append, List.mem_append, List.mem_singleton, not_or] at hn
      exact ⟨fun h => hn.2 h.symm, b, a', h1, hn.1⟩
  · rintro (rfl | ⟨hr, b, a, e, hn⟩)
    · exact ⟨rs.reverse, [], rfl, by simp⟩
    · refine ⟨b, a ++ [r], by rw [e]; simp, ?_⟩
      simp only [List.mem_append, List.mem_singleton, not_or]
      exact ⟨hn, fun h => hr h.symm⟩

theorem tally_open (n : Str) (rs : List Req) : (tally n rs).2 = true ↔ OpenLog rs.reverse n := by
  induction rs with
  | nil => simp [tally, OpenLog]
  | cons r rs ih =>
    rw [List.reverse_cons, openLog_cons, ← ih]
    cases r with
    | verbosity v => simp [tally]
    | make m =>
      by_cases hm : m = n
      · simp [tally, hm]
      · simp [tally, hm]
    | stop m =>
      by_cases hm : m = n
      · simp only [tally, hm, true_and]
        split <;> simp_all
      · simp [tally, hm]

theorem tally_once (n : Str) (rs : List Req) (h : (madeNames rs).count n ≤ 1) :
    (tally n rs).1 = if (tally n rs).2 then 1 else 0 := by
  have key : ∀ rs, (madeNames rs).count n = 0 → tally n rs = (0, false) := by
    intro rs
    induction rs with
    | nil => intro _; rfl
    | cons r rs ih =>
      intro h
      cases r with
      | verbosity v => exact ih h
      | make m =>
        simp only [madeNames, List.filterMap_cons] at h
        rw [List.count_cons] at h
        have hm : m ≠ n := by rintro rfl; simp at h
        simp only [tally, hm, if_false]
        exact ih (by simp only [madeNames]; omega)
      | stop m =>
        have := ih h
        simp [tally, this]
  induction rs with
  | nil => rfl
  | cons r rs ih =>
    cases r with
    | verbosity v => exact ih h
    | make m =>
      simp only [madeNames, List.filterMap_cons] at h
      rw [List.count_cons] at h
      by_cases hm : m = n
      · subst hm
        simp only [beq_self_eq_true, if_true] at h
        have := key rs (by simp only [madeNames]; omega)
        simp [tally, this]
      · simp only [tally, hm, if_false]
        exact ih (by simp only [madeNames]; omega)
    | stop m =>
      have := ih h
      simp only [tally]
      split
      · rename_i h2
        rw [h2.2] at this
        simp [this]
      · exact this

theorem file_written (env : Option Verbosity) (rs : List Req) (n : Str) (l : Nat) (hl : 10 ≤ l) :
    written (.file n) l (rs.foldl step (initialSetup env)) = (tally n rs.reverse).1 := by
  have h0 : written (.file n) l (initialSetup env) = 0 := by
    have g0 := good_add .null _ good_empty
    cases env with
    | none => exact (written_add _ _ _ _ good_empty).trans (by simp [written])
    | some v =>
      have := verbosity_others (.file n) l v _ g0 (by simp)
      rw [written_add _ _ _ _ good_empty] at this
      refine Eq.trans (b := written (.file n) l (setVerbosity v _).2) rfl (this.trans ?_)
      cases v <;> simp [written]
  have hn : get? n (initialSetup env).sessions = none := by
    cases env with
    | none => rfl
    | some v => exact congrArg (get? n) (verbosity_sessions v _)
  have key := tally_run n l _ (good_init env) h0 hn hl rs.reverse
  rw [List.foldr_reverse] at key
  exact key.2.1

theorem tally_none (n : Str) (rs : List Req) (h : n ∉ madeNames rs) : tally n rs = (0, false) := by
  induction rs with
  | nil => rfl
  | cons r rs ih =>
    cases r with
    | verbosity v => exact ih h
    | make m =>
      simp only [madeNames, List.filterMap_cons, List.mem_cons, not_or] at h
      simp only [tally, Ne.symm h.1, if_false]
      exact ih h.2
    | stop m =>
      have := ih h
      simp [tally, this]

theorem sockets_run (l : Nat) (hl : 10 ≤ l) (rs : List Req) : ∀ s, Good s →
    written .socket l (rs.foldl step s) = written .socket l s + socketsAsked rs := by
  induction rs with
  | nil => intro s _; simp [socketsAsked]
  | cons r rs ih =>
    intro s g
    rw [List.foldl_cons, ih _ (good_step r s g)]
    cases r with
    | make n =>
      simp only [step]
      rw [written_make _ _ _ _ g]
      simp [socketsAsked]
    | stop n =>
      simp only [step]
      rw [written_stop _ _ _ _ g (by simp)]
      simp [socketsAsked]
    | verbosity v =>
      simp only [step]
      rw [verbosity_others _ _ _ _ g (by simp)]
      cases v with
      | socket => simp [socketsAsked, hl]; omega
      | num n => simp [socketsAsked]

end LoggingLemmas

open LoggingLemmas

open Classical in
/-- **C123, session logs (partial).**  If a log was made under a name once at most, a record (of level DEBUG
or above) is written to that file once while the log is open - made and not stopped since - and not at all
otherwise, whatever else is made, stopped or shown.

What is missing: `C123_shared_violation`; the names are made of the clock in whole seconds, so two sessions
may get the same. -/
theorem C123_session_partial (env : Option Verbosity) (rs : List Req) (n : Str) (l : Nat) (hl : 10 ≤ l)
    (h : (madeNames rs).count n ≤ 1) :
    written (.file n) l (rs.foldl step (initialSetup env)) = if OpenLog rs n then 1 else 0 := by
  have ho := tally_open n rs.reverse
  have hc : (madeNames rs.reverse).count n ≤ 1 := by
    simpa [madeNames, List.filterMap_reverse] using h
  rw [List.reverse_reverse] at ho
  rw [file_written env rs n l hl, tally_once n _ hc]
  by_cases hx : OpenLog rs n
  · simp [ho.2 hx, hx]
  · have : (tally n rs.reverse).2 = false := by
      cases h2 : (tally n rs.reverse).2 with
      | false => rfl
      | true => exact absurd (ho.1 h2) hx
    simp [this, hx]

/-- The first log is stopped, the second is not; verbosity is asked for in between. -/
example : (written (.file "a".toList) 20 ([.make "a".toList, .verbosity (.num 2), .make "b".toList, .stop "a".toList].foldl step
      (initialSetup none)),
    written (.file "b".toList) 20 ([.make "a".toList, .verbosity (.num 2), .make "b".toList, .stop "a".toList].foldl step
      (initialSetup none))) = (0, 1) := by decide +kernel

/-- **C123, violation.**  Two logs made under one name: everything is written to the file twice, and after the
log is stopped - as often as one likes - it is still written once. -/
theorem C123_shared_violation (env : Option Verbosity) (rs : List Req) (n : Str) (k l : Nat) (hl : 10 ≤ l)
    (hm : n ∉ madeNames rs) :
    written (.file n) l ((rs ++ [Req.make n, .make n]).foldl step (initialSetup env)) = 2 ∧
      written (.file n) l ((rs ++ [Req.make n, .make n] ++ List.replicate (k + 1) (Req.stop n)).foldl step (initialSetup env)) = 1 := by
  have h0 : tally n rs.reverse = (0, false) :=
    tally_none n _ (by simpa [madeNames, List.filterMap_reverse] using hm)
  have hk : ∀ k, tally n (List.replicate (k + 1) (Req.stop n) ++ (.make n :: .make n :: rs.reverse)) = (1, false) := by
    intro k
    induction k with
    | zero => simp [tally, h0]
    | succ k ih =>
      rw [List.replicate_succ, List.cons_append]
      simp [tally, ih]
  rw [file_written _ _ _ _ hl, file_written _ _ _ _ hl]
  refine ⟨by simp [tally, h0], ?_⟩
  have : (rs ++ [Req.make n, .make n] ++ List.replicate (k + 1) (Req.stop n)).reverse =
      List.replicate (k + 1) (Req.stop n) ++ (.make n :: .make n :: rs.reverse) := by simp
  rw [this, hk]

example : (written (.file "a".toList) 20 ([.make "a".toList, .make "a".toList, .stop "a".toList, .stop "a".toList].foldl step
    (initialSetup none))) = 1 := by decide +kernel

/-- **C123, verbosity without the environment variable, or with none above 0 in it (exact, and a
violation).**  Without a handler on record every request adds a handler: a record is shown as often as the verbosities asked for so far, taken
one by one, would show it.  Verbosity 0 turns nothing off. -/
theorem C123_stacked_violation (env : Option Verbosity) (he : ∀ n, env = some (.num n) → n ≤ 0) (rs : List Req) (l : Nat) :
    written .stderr l (rs.foldl step (initialSetup env)) = ((askedFor rs).map (fun n => Due n l)).sum := by
  have h : (initialSetup env).verbose = none ∧ written .stderr l (initialSetup env) = 0 := by
    cases env with
    | none => simp [written, initialSetup, addHandler, DEBUG]
    | some v =>
      cases v with
      | socket => simp [written, initialSetup, setVerbosity, addHandler, DEBUG]
      | num n =>
        have hn := he n rfl
        have hp : ¬ n > 0 := by omega
        by_cases h0 : n = 0 <;> simp [written, initialSetup, setVerbosity, addHandler, DEBUG, h0, hp]
  rw [stacked_run l rs _ (good_init env) h.1, h.2]
  omega

/-- Verbosity 2, then 1, then 0: an error is shown twice. -/
example : written .stderr 40 ([.verbosity (.num 2), .verbosity (.num 1), .verbosity (.num 0)].foldl step (initialSetup none)) = 2 := by
  decide +kernel

/-- **C123, verbosity (partial).**  The first verbosity asked for does what it says.

What is missing: later requests, see `C123_stacked_violation` and `C123_env`. -/
theorem C123_first_partial (rs : List Req) (n : Int) (l : Nat) (h : askedFor rs = [n]) :
    written .stderr l (rs.foldl step (initialSetup none)) = Due n l := by
  rw [C123_stacked_violation none (by simp), h]; simp

example : written .stderr 20 ([.make "a".toList, .verbosity (.num 1), .stop "a".toList].foldl step (initialSetup none)) = 1 := by
  decide +kernel

/-- **C123, verbosity with the environment variable (exact).**  With a positive verbosity in the environment
there is one handler for good: a record is never shown twice; it is not shown at all once verbosity 0 was
asked for, whatever is asked for later; and once verbosity 1 was, what is below EXECINFO stays hidden. -/
theorem C123_env (e : Int) (he : 0 < e) (rs : List Req) (l : Nat) :
    written .stderr l (rs.foldl step (initialSetup (some (.num e)))) =
      if 0 ∈ askedFor rs then 0 else if e = 1 ∨ 1 ∈ askedFor rs then Due 1 l else Due 2 l := by
  have g := good_init (some (.num e))
  have h0 : e ≠ 0 := by omega
  have hh : Held ⟨1, .stderr⟩ false (decide (e = 1)) (initialSetup (some (.num e))) := by
    simp only [initialSetup, setVerbosity, addHandler, h0, he, gt_iff_lt, if_true, if_false]
    refine ⟨?_, ?_, ?_, ?_⟩
    · simp
    · intro h hm hs
      by_cases h1 : e = 1 <;> simp [h1, setLevel] at hm <;> rcases hm with rfl | rfl <;> simp_all
    · by_cases h1 : e = 1 <;> simp [h1, setLevel]
    · by_cases h1 : e = 1 <;> simp [h1, setLevel, EXECINFO]
  have := held_run _ rs _ _ _ g hh
  rw [held_written _ _ _ l _ (good_run rs _ g) this]
  simp only [Bool.false_or, Bool.or_eq_true, decide_eq_true_eq, List.contains_iff_mem, Due]
  simp

/-- Verbosity 2 from the environment, then 0, then 2 again: nothing is shown. -/
example : written .stderr 40 ([.verbosity (.num 0), .verbosity (.num 2)].foldl step (initialSetup (some (.num 2)))) = 0 := by
  decide +kernel

/-- Verbosity 2 from the environment, then 1, then 2 again: a debug record stays hidden. -/
example : written .stderr 10 ([.verbosity (.num 1), .verbosity (.num 2)].foldl step (initialSetup (some (.num 2)))) = 0 := by
  decide +kernel

/-- **C123, violation.**  With the variable set, what is shown is not what the last verbosity asks for, in
either direction: turned off and on again it stays off; lowered and raised again it stays low. -/
theorem C123_env_violation (e n : Int) (he : 0 < e) (hn : 1 < n) :
    written .stderr 40 ([.verbosity (.num 0), .verbosity (.num n)].foldl step (initialSetup (some (.num e)))) = 0 ∧
      Due n 40 = 1 ∧
      written .stderr 10 ([.verbosity (.num 1), .verbosity (.num n)].foldl step (initialSetup (some (.num e)))) = 0 ∧
      Due n 10 = 1 := by
  have h1 : n ≠ 1 := by omega
  have h2 : ¬ n ≤ 0 := by omega
  refine ⟨?_, by simp [Due, h1, h2], ?_, by simp [Due, h1, h2]⟩
  · rw [C123_env e he]; simp [askedFor]
  · rw [C123_env e he]
    simp [askedFor, Due]

/-- **C123, sockets.**  The socket is sent a record as often as it was asked for (the environment included). -/
theorem C123_sockets (env : Option Verbosity) (rs : List Req) (l : Nat) (hl : 10 ≤ l) :
    written .socket l (rs.foldl step (initialSetup env)) =
      socketsAsked ((env.toList.map Req.verbosity) ++ rs) := by
  rw [sockets_run l hl rs _ (good_init env)]
  have g0 := good_add .null _ good_empty
  cases env with
  | none =>
    have : written .socket l (initialSetup none) = 0 := by simp [written, initialSetup, addHandler]
    simp [this]
  | some v =>
    have := verbosity_others .socket l v _ g0 (by simp)
    rw [written_add _ _ _ _ good_empty] at this
    have h1 : written .socket l (initialSetup (some v)) = _ := this
    rw [h1]
    cases v <;> simp [written, socketsAsked, hl]
    omega

example : written .socket 20 ([.verbosity .socket, .verbosity (.num 0)].foldl step (initialSetup (some .socket))) = 2 := by
  decide +kernel

end Nxt.Props
