import Verif.Spec.Code
import Verif.Lemmas.Py
/-!
# Properties C100–C103: code lines and enabled states
-/
namespace Nxt.Props
open Code Spec Py

/-! ## C100: reading code -/

theorem join_append (sep : Str) (a b : List Str) (ha : a ≠ []) (hb : b ≠ []) :
    join sep (a ++ b) = join sep a ++ sep ++ join sep b := by
  induction a with
  | nil => exact absurd rfl ha
  | cons x xs ih =>
    cases xs with
    | nil =>
      obtain ⟨y, ys, rfl⟩ := List.exists_cons_of_ne_nil hb
      rfl
    | cons z zs =>
      have h1 : join sep (x :: z :: zs ++ b) = x ++ sep ++ join sep (z :: zs ++ b) := rfl
      have h2 : join sep (x :: z :: zs) = x ++ sep ++ join sep (z :: zs) := rfl
      rw [h1, h2, ih (by simp)]
      simp

/-- C100: resolving line by line and splitting gives the text of the resolved lines, and no line with a line break. -/
theorem C100_lines (resolve : Str → Str) (lines : List Str) :
    codeString (resolvedLines resolve lines) = join ['\n'] (lines.map resolve) ∧
    ∀ l ∈ resolvedLines resolve lines, '\n' ∉ l := by
  constructor
  · unfold codeString resolvedLines
    induction lines with
    | nil => rfl
    | cons l ls ih =>
      rw [List.flatMap_cons, List.map_cons]
      cases ls with
      | nil => simp [join_split, join]
      | cons m ms =>
        rw [join_append, ih, join_split]
        · rfl
        · exact split_ne_nil _ _
        · rw [List.flatMap_cons]; simp [split_ne_nil]
  · intro l hl
    obtain ⟨k, -, hk⟩ := List.mem_flatMap.1 hl
    exact not_mem_of_mem_split hk

/-- C100: the line reported for a syntax error is the one with the error, counted from 1, in the lines given back,
whatever the compiler says about code with a comment before it. -/
theorem C100_error_line (check : List Str → Option Nat) (lines : List Str)
    (hc : check ("# Blank Line".toList :: lines) = (check lines).map (· + 1)) :
    errorLine check none lines = check lines := by
  unfold errorLine
  have : BLANK = "# Blank Line".toList := rfl
  rw [this, hc]
  cases check lines with
  | none => rfl
  | some n => simp

/-- C100, where it fails: for custom code no line is put before, but the number is lowered all the same. -/
theorem C100_custom_violation (check : List Str → Option Nat) (custom lines : List Str) (n : Nat) (hc : check custom = some (n + 1)) :
    errorLine check (some custom) lines = some n := by
  unfold errorLine
  simp [hc]

/-- A compiler which takes the first line `bad` for an error. -/
def badLine (lines : List Str) : Option Nat := (lines.findIdx? (· = "bad".toList)).map (· + 1)

example : badLine ("# Blank Line".toList :: ["x".toList, "bad".toList]) = (badLine ["x".toList, "bad".toList]).map (· + 1) ∧
    errorLine badLine none ["x".toList, "bad".toList] = some 2 ∧
    errorLine badLine (some ["x".toList, "bad".toList]) [] = some 1 ∧
    resolvedLines (fun l => l ++ "\n;".toList) ["a".toList, "b".toList] = ["a".toList, ";".toList, "b".toList, ";".toList] := by
  decide +kernel

/-! ## C101: setting code -/

theorem spread_heap (L : Layout) (live : Nat) (ds : List Str) (S : St) : (spread L live ds S).heap = S.heap := by
  induction ds generalizing S with
  | nil => rfl
  | cons d ds ih =>
    rw [spread]
    split
    · rfl
    · split
      · rfl
      · split
        · rfl
        · rw [ih]; rfl

theorem setCode_heap (L : Layout) (S : St) (p : Str) (s : Nat) (lines : List Str) (inst : Option Str) (ds : List Str) :
    (setCode L S p s lines inst ds).heap = fun a => if a = s then lines else S.heap a := by
  unfold setCode
  simp only
  split <;> rw [spread_heap] <;> rfl

/-- The own lists after the loop: those before the first node which ends it have the new one. -/
theorem spread_own (L : Layout) (live : Nat) (ds : List Str) (S : St) (hn : ds.Nodup) (q : Str) :
    (spread L live ds S).own q = if q ∈ ds.takeWhile (fun d => ¬ Stops L S live d) then some live else S.own q := by
  induction ds generalizing S with
  | nil => rfl
  | cons d ds ih =>
    obtain ⟨hd, hn'⟩ := List.nodup_cons.1 hn
    have hstop : Stops L S live d → spread L live (d :: ds) S = S := by
      intro h
      rw [spread]
      split
      · rfl
      · next h1 =>
        split
        · rfl
        · next h2 =>
          rw [if_pos]
          rcases h with h | h | h
          · exact absurd (by simp [h]) h1
          · exact absurd h h2
          · exact ⟨h.1.symm, by rw [h.1]; exact h.2⟩
    by_cases h : Stops L S live d
    · rw [hstop h, List.takeWhile_cons_of_neg (by simp [h])]
      rfl
    · rw [List.takeWhile_cons_of_pos (by simp [h])]
      have e : spread L live (d :: ds) S = spread L live ds (setOwn S d live) := by
        rw [spread, if_neg (fun h1 => h (.inl (by simpa using h1))), if_neg (fun h2 => h (.inr (.inl h2))),
          if_neg (fun h3 => h (.inr (.inr ⟨h3.1.symm, by rw [h3.1]; exact h3.2⟩)))]
      rw [e, ih _ hn']
      have e2 : ds.takeWhile (fun x => ¬ Stops L (setOwn S d live) live x) = ds.takeWhile (fun x => ¬ Stops L S live x) := by
        have key : ∀ (l : List Str), (∀ x ∈ l, x ≠ d) →
            l.takeWhile (fun x => decide (¬ Stops L (setOwn S d live) live x)) = l.takeWhile (fun x => decide (¬ Stops L S live x)) := by
          intro l
          induction l with
          | nil => intro _; rfl
          | cons x xs ihx =>
            intro hx
            have : Stops L (setOwn S d live) live x ↔ Stops L S live x := by
              simp [Stops, addr, setOwn, hx x List.mem_cons_self]
            rw [List.takeWhile_cons, List.takeWhile_cons, ihx (fun y hy => hx y (List.mem_cons_of_mem _ hy))]
            simp [this]
        exact key ds (fun x hx he => hd (he ▸ hx))
      rw [e2]
      by_cases hq : q ∈ ds.takeWhile (fun x => ¬ Stops L S live x)
      · rw [if_pos hq, if_pos (List.mem_cons_of_mem _ hq)]
      · rw [if_neg hq]
        by_cases hqd : q = d
        · subst hqd; simp [setOwn]
        · rw [if_neg (fun h' => (List.mem_cons.1 h').elim hqd hq)]
          simp [setOwn, hqd]

/-- Where the loop over the dependents begins. -/
def begun (L : Layout) (S : St) (p : Str) (s : Nat) (lines : List Str) (live : Nat) : St :=
  let S' : St := { S with heap := fun a => if a = s then lines else S.heap a }
  if addr L S p ≠ s ∨ lines = [] then setOwn S' p live else S'

theorem setCode_eq (L : Layout) (S : St) (p : Str) (s : Nat) (lines : List Str) (inst : Option Str) (ds : List Str) :
    let live := chosen L (fun a => if a = s then lines else S.heap a) p s lines (inst.map (addr L S))
    setCode L S p s lines inst ds = spread L live ds (begun L S p s lines live) ∧
    addr L (begun L S p s lines live) p = live := by
  intro live
  unfold setCode begun
  simp only
  have ha : addr L { S with heap := fun a => if a = s then lines else S.heap a } p = addr L S p := rfl
  rw [ha]
  by_cases h : addr L S p ≠ s ∨ lines = []
  · rw [if_pos h, if_pos h]
    exact ⟨rfl, by simp [addr, setOwn]⟩
  · rw [if_neg h, if_neg h]
    have h1 : addr L S p = s := Classical.byContradiction (fun h' => h (.inl h'))
    have hl : live = s := by
      show chosen L _ p s lines _ = s
      unfold chosen
      rw [if_neg (fun h' => h (.inr h'))]
    rw [hl]
    exact ⟨rfl, h1⟩

/-- The list of the node after setting code, and the lists of the others. -/
theorem setCode_addr (L : Layout) (S : St) (p : Str) (s : Nat) (lines : List Str) (inst : Option Str) (ds : List Str) (hn : ds.Nodup)
    (hp : p ∉ ds) (q : Str) :
    let live := chosen L (fun a => if a = s then lines else S.heap a) p s lines (inst.map (addr L S))
    let S1 : St := { S with heap := fun a => if a = s then lines else S.heap a }
    addr L (setCode L S p s lines inst ds) q =
      if q = p ∨ q ∈ ds.takeWhile (fun d => ¬ Stops L S1 live d) then live else addr L S q := by
  intro live S1
  obtain ⟨h1, h2⟩ := setCode_eq L S p s lines inst ds
  have hb : ∀ x, x ≠ p → Stops L (begun L S p s lines live) live x = Stops L S1 live x ∧
      addr L (begun L S p s lines live) x = addr L S x := by
    intro x hx
    unfold begun
    simp only
    split
    · constructor
      · simp [Stops, addr, setOwn, hx, S1]
      · simp [addr, setOwn, hx]
    · exact ⟨rfl, rfl⟩
  have hw : ∀ (l : List Str), p ∉ l → l.takeWhile (fun d => decide (¬ Stops L (begun L S p s lines live) live d)) =
      l.takeWhile (fun d => decide (¬ Stops L S1 live d)) := by
    intro l
    induction l with
    | nil => intro _; rfl
    | cons x xs ih =>
      intro hx
      rw [List.takeWhile_cons, List.takeWhile_cons, ih (fun h => hx (List.mem_cons_of_mem _ h))]
      simp [(hb x (fun h => hx (h ▸ List.mem_cons_self))).1]
  have ho := spread_own L live ds (begun L S p s lines live) hn q
  rw [hw ds hp] at ho
  rw [h1]
  have hmem : q ∈ ds.takeWhile (fun d => ¬ Stops L S1 live d) → q ∈ ds := fun h => (List.takeWhile_sublist _).subset h
  have hu : ∀ T : St, addr L T q = (T.own q).getD ((L.refs q).headD 0) := fun _ => rfl
  rw [hu, ho]
  by_cases hq : q ∈ ds.takeWhile (fun d => ¬ Stops L S1 live d)
  · rw [if_pos hq, if_pos (.inr hq)]
    rfl
  · rw [if_neg hq]
    by_cases hqp : q = p
    · rw [if_pos (.inl hqp), hqp]
      exact h2
    · rw [if_neg (fun h => h.elim hqp hq)]
      exact (hb q hqp).2

theorem chosen_lines (L : Layout) (h : Nat → List Str) (p : Str) (s : Nat) (lines : List Str) (hl : lines ≠ []) (i : Option Nat) :
    chosen L h p s lines i = s := by
  unfold chosen
  rw [if_neg hl]

/-- C101: after setting code the spec has it, no other spec changes, and the composite node shows it. -/
theorem C101_node (L : Layout) (S : St) (p : Str) (s : Nat) (lines : List Str) (inst : Option Str) (ds : List Str)
    (hn : ds.Nodup) (hp : p ∉ ds) (hl : lines ≠ []) :
    let S' := setCode L S p s lines inst ds
    S'.heap s = lines ∧ (∀ a ≠ s, S'.heap a = S.heap a) ∧ linesOf L S' p = lines := by
  refine ⟨by rw [setCode_heap]; simp, fun a ha => by rw [setCode_heap]; simp [ha], ?_⟩
  unfold linesOf
  rw [setCode_addr L S p s lines inst ds hn hp, if_pos (.inl rfl), chosen_lines L _ p s lines hl, setCode_heap]
  simp

/-- C101: nodes which do not depend on it and do not share the list of the spec show what they did. -/
theorem C101_others (L : Layout) (S : St) (p : Str) (s : Nat) (lines : List Str) (inst : Option Str) (ds : List Str)
    (hn : ds.Nodup) (hp : p ∉ ds) (q : Str) (hq : q ≠ p) (hqd : q ∉ ds) (ha : addr L S q ≠ s) :
    linesOf L (setCode L S p s lines inst ds) q = linesOf L S q := by
  unfold linesOf
  rw [setCode_addr L S p s lines inst ds hn hp, if_neg, setCode_heap]
  · exact if_neg ha
  · exact fun h => h.elim hq (fun h' => hqd ((List.takeWhile_sublist _).subset h'))

/-- All dependents which are there, have no code in their own specs and do not share the new list take it. -/
theorem takeWhile_all {α : Type} (f : α → Bool) (l : List α) (h : ∀ x ∈ l, f x = true) : l.takeWhile f = l := by
  induction l with
  | nil => rfl
  | cons x xs ih =>
    rw [List.takeWhile_cons_of_pos (h x List.mem_cons_self), ih (fun y hy => h y (List.mem_cons_of_mem _ hy))]

theorem composedCode_none (h : Nat → List Str) (refs : List Nat) (i : List Str) (hr : ∀ r ∈ refs, h r = []) :
    composedCode h refs (some i) = i := by
  unfold composedCode
  rw [List.find?_eq_none.2]
  · rfl
  · intro l hl
    obtain ⟨r, hr', rfl⟩ := List.mem_map.1 hl
    simp [hr r hr']

/-- C101, as far as it goes: if all dependents are there, have no code in specs of their own, and either all or none of them
share the list of the spec, each shows what a composition gives an instance of the node.  Missing: other dependents, see
`C101_stop_violation`. -/
theorem C101_dependents_partial (L : Layout) (S : St) (p : Str) (s : Nat) (lines : List Str) (inst : Option Str) (ds : List Str)
    (hn : ds.Nodup) (hp : p ∉ ds) (hl : lines ≠ []) (ht : ∀ d ∈ ds, L.there d ∧ ∀ r ∈ L.refs d, r ≠ s ∧ S.heap r = [])
    (hs : (∀ d ∈ ds, addr L S d = s) ∨ (∀ d ∈ ds, addr L S d ≠ s)) (d : Str) (hd : d ∈ ds) :
    let S' := setCode L S p s lines inst ds
    linesOf L S' d = composedCode S'.heap (L.refs d) (some (linesOf L S' p)) := by
  intro S'
  have hnode : linesOf L S' p = lines := (C101_node L S p s lines inst ds hn hp hl).2.2
  have hheap : S'.heap = fun a => if a = s then lines else S.heap a := setCode_heap L S p s lines inst ds
  rw [composedCode_none _ _ _ (fun r hr => by
    rw [hheap]; show (if r = s then lines else S.heap r) = []
    rw [if_neg ((ht d hd).2 r hr).1]; exact ((ht d hd).2 r hr).2), hnode]
  have hA := setCode_addr L S p s lines inst ds hn hp d
  simp only [chosen_lines L _ p s lines hl] at hA
  have hA' : addr L S' d = s := by
    rcases hs with hs | hs
    · rw [hA, hs d hd]; exact ite_self _
    · rw [hA]
      refine if_pos (.inr ?_)
      rw [takeWhile_all _ _ (fun x hx => ?_)]
      · exact hd
      · simp only [decide_eq_true_eq]
        rintro (h | ⟨r, hr, h⟩ | h)
        · rw [(ht x hx).1] at h; cases h
        · exact h (by show (if r = s then lines else S.heap r) = []
                      rw [if_neg ((ht x hx).2 r hr).1]; exact ((ht x hx).2 r hr).2)
        · exact hs x hx h.1
  unfold linesOf
  rw [hA', hheap]
  exact if_pos rfl

/-- A node after one which ends the loop is not reached. -/
theorem not_taken (f : Str → Bool) (pre post : List Str) (d q : Str) (hn : (pre ++ d :: post).Nodup) (hd : f d = false) (hq : q ∈ post) :
    q ∉ (pre ++ d :: post).takeWhile f := by
  induction pre with
  | nil => rw [List.nil_append, List.takeWhile_cons_of_neg (by simp [hd])]; simp
  | cons x xs ih =>
    obtain ⟨h1, h2⟩ := List.nodup_cons.1 (show (x :: (xs ++ d :: post)).Nodup from hn)
    rw [List.cons_append, List.takeWhile_cons]
    split
    · intro h
      rcases List.mem_cons.1 h with h | h
      · exact h1 (by rw [← h]; simp [hq])
      · exact ih h2 h
    · simp

/-- C101, where it fails: a dependent which is not there, has code of its own or shares the list already ends the loop; all
dependents after it which do not share the list keep the code they had. -/
theorem C101_stop_violation (L : Layout) (S : St) (p : Str) (s : Nat) (lines : List Str) (inst : Option Str) (pre post : List Str)
    (d q : Str) (hn : (pre ++ d :: post).Nodup) (hp : p ∉ pre ++ d :: post) (hl : lines ≠ [])
    (hd : L.there d = false ∨ (∃ r ∈ L.refs d, r ≠ s ∧ S.heap r ≠ []) ∨ addr L S d = s) (hq : q ∈ post) (ha : addr L S q ≠ s) :
    linesOf L (setCode L S p s lines inst (pre ++ d :: post)) q = linesOf L S q := by
  unfold linesOf
  rw [setCode_addr L S p s lines inst _ hn hp, if_neg, setCode_heap]
  · exact if_neg ha
  · rintro (h | h)
    · exact hp (by rw [← h]; simp [hq])
    · refine not_taken _ pre post d q hn ?_ hq h
      rw [chosen_lines L _ p s lines hl]
      simp only [decide_eq_false_iff_not, Classical.not_not]
      rcases hd with hd | ⟨r, hr, hrs, hne⟩ | hd
      · exact .inl hd
      · exact .inr (.inl ⟨r, hr, by show (if r = s then lines else S.heap r) ≠ []
                                    rw [if_neg hrs]; exact hne⟩)
      · exact .inr (.inr ⟨hd, by show (if s = s then lines else S.heap s) ≠ []
                                 rw [if_pos rfl]; exact hl⟩)

/-- C101, where it fails: code set on a weak layer hides the code of a stronger one, unlike in a composition. -/
theorem C101_stronger_violation (L : Layout) (S : St) (p : Str) (s r : Nat) (rest : List Nat) (lines : List Str) (inst : Option Str)
    (ds : List Str) (hn : ds.Nodup) (hp : p ∉ ds) (hr : L.refs p = r :: rest) (hrs : r ≠ s) (hl : lines ≠ [])
    (hne : S.heap r ≠ []) :
    let S' := setCode L S p s lines inst ds
    linesOf L S' p = lines ∧ ∀ i, composedCode S'.heap (L.refs p) i = S.heap r := by
  obtain ⟨-, h2, h3⟩ := C101_node L S p s lines inst ds hn hp hl
  refine ⟨h3, fun i => ?_⟩
  unfold composedCode
  rw [hr, List.map_cons, h2 r hrs, List.find?_cons_of_pos (by simpa using hne)]
  rfl

/-- `/a` has the specs 1 and 2 (weak), and the code of spec 2; `/i` and `/k` are instances of it, and `/j` is one with code of
its own.  Code set on spec 1 reaches `/i` but not `/k`, which comes after `/j`.  Code set on spec 2 after that hides it. -/
example :
    let L : Layout := ⟨fun _ => true, fun p => if p = "/a".toList then [1, 2] else if p = "/j".toList then [3] else [4]⟩
    let S : St := ⟨fun a => if a = 2 then ["low".toList] else if a = 3 then ["own".toList] else [],
      fun p => if p = "/j".toList then some 3 else some 2⟩
    let S1 := setCode L S "/a".toList 1 ["top".toList] none ["/i".toList, "/j".toList, "/k".toList]
    linesOf L S1 "/a".toList = ["top".toList] ∧ linesOf L S1 "/i".toList = ["top".toList] ∧
    linesOf L S1 "/j".toList = ["own".toList] ∧ linesOf L S1 "/k".toList = ["low".toList] ∧
    linesOf L (setCode L S1 "/a".toList 2 ["weak".toList] none ["/i".toList]) "/a".toList = ["weak".toList] ∧
    linesOf L (setCode L S "/a".toList 1 ["top".toList] none ["/i".toList, "/k".toList]) "/k".toList = ["top".toList] := by
  decide +kernel

/-! ## C102: clearing code -/

theorem chosen_none (L : Layout) (h : Nat → List Str) (p : Str) (s : Nat) (hs : h s = []) :
    h (chosen L h p s [] none) = composedCode h (L.refs p) none := by
  unfold chosen composedCode
  rw [if_pos rfl, List.find?_map]
  show h (((L.refs p).find? (fun r => decide (h r ≠ []))).getD s) = _
  have e : (fun r => decide (h r ≠ [])) = (fun l => decide (l ≠ [])) ∘ h := rfl
  rw [e]
  cases hf : (L.refs p).find? ((fun l => decide (l ≠ [])) ∘ h) with
  | some r => simp
  | none => simpa using hs

/-- C102: after clearing the code of a node which is no instance, it shows what a composition gives: the code of the
strongest spec left with code, or none. -/
theorem C102_plain (L : Layout) (S : St) (p : Str) (s : Nat) (ds : List Str) (hn : ds.Nodup) (hp : p ∉ ds) :
    let S' := setCode L S p s [] none ds
    S'.heap s = [] ∧ (∀ a ≠ s, S'.heap a = S.heap a) ∧ linesOf L S' p = composedCode S'.heap (L.refs p) none := by
  refine ⟨by rw [setCode_heap]; simp, fun a ha => by rw [setCode_heap]; simp [ha], ?_⟩
  unfold linesOf
  rw [setCode_addr L S p s [] none ds hn hp, if_pos (.inl rfl), setCode_heap]
  have hs : (fun a => if a = s then [] else S.heap a) s = [] := if_pos rfl
  generalize (fun a => if a = s then [] else S.heap a) = h at hs
  exact chosen_none L h p s hs

/-- The node shows the code of its instance source. -/
theorem clear_inst (L : Layout) (S : St) (p i : Str) (s : Nat) (ds : List Str) (hn : ds.Nodup) (hp : p ∉ ds) (hi : addr L S i ≠ s) :
    linesOf L (setCode L S p s [] (some i) ds) p = linesOf L S i := by
  unfold linesOf
  rw [setCode_addr L S p s [] (some i) ds hn hp, if_pos (.inl rfl), setCode_heap]
  exact if_neg hi

/-- C102: an instance shows the code of its source after its own was cleared; this is what a composition gives when no
other spec of the node has code.  Missing: the other case, see `C102_hidden_violation`. -/
theorem C102_instance_partial (L : Layout) (S : St) (p i : Str) (s : Nat) (ds : List Str) (hn : ds.Nodup) (hp : p ∉ ds)
    (hi : addr L S i ≠ s) (hr : ∀ r ∈ L.refs p, r ≠ s → S.heap r = []) :
    let S' := setCode L S p s [] (some i) ds
    linesOf L S' p = composedCode S'.heap (L.refs p) (some (linesOf L S i)) := by
  simp only
  rw [clear_inst L S p i s ds hn hp hi, composedCode_none]
  intro r hrm
  rw [setCode_heap]
  by_cases h : r = s
  · simp [h]
  · simp [h, hr r hrm h]

/-- C102, where it fails: the code of the instance source, even if there is none, hides the code of the other specs. -/
theorem C102_hidden_violation (L : Layout) (S : St) (p i : Str) (s r : Nat) (ds : List Str) (hn : ds.Nodup) (hp : p ∉ ds)
    (hi : addr L S i ≠ s) (hr : r ∈ L.refs p) (hrs : r ≠ s) (hne : S.heap r ≠ [])
    (hall : ∀ a ∈ L.refs p, a ≠ s → S.heap a ≠ linesOf L S i) :
    let S' := setCode L S p s [] (some i) ds
    linesOf L S' p = linesOf L S i ∧ ∀ inst, linesOf L S' p ≠ composedCode S'.heap (L.refs p) inst := by
  have e1 := clear_inst L S p i s ds hn hp hi
  refine ⟨e1, fun inst => ?_⟩
  rw [e1]
  unfold composedCode
  rw [setCode_heap]
  cases hf : ((L.refs p).map (fun a => if a = s then [] else S.heap a)).find? (fun l => decide (l ≠ [])) with
  | none =>
    have := List.find?_eq_none.1 hf (S.heap r) (List.mem_map.2 ⟨r, hr, if_neg hrs⟩)
    simp [hne] at this
  | some l =>
    have hl := List.find?_some hf
    obtain ⟨a, ha, rfl⟩ := List.mem_map.1 (List.mem_of_find?_eq_some hf)
    by_cases has : a = s
    · simp [has] at hl
    · rw [if_neg has]
      exact fun h => hall a ha has h.symm

/-- C102, as far as it goes: if all dependents are there, have no code in specs of their own and shared the cleared list, each
shows what a composition gives an instance of the node.  Missing: other dependents, see `C102_stop_violation`. -/
theorem C102_dependents_partial (L : Layout) (S : St) (p : Str) (s : Nat) (inst : Option Str) (ds : List Str) (hn : ds.Nodup) (hp : p ∉ ds)
    (ht : ∀ d ∈ ds, L.there d ∧ ∀ r ∈ L.refs d, r ≠ s → S.heap r = []) (hs : ∀ d ∈ ds, addr L S d = s) (d : Str) (hd : d ∈ ds) :
    let S' := setCode L S p s [] inst ds
    linesOf L S' d = composedCode S'.heap (L.refs d) (some (linesOf L S' p)) := by
  intro S'
  have hheap : S'.heap = fun a => if a = s then [] else S.heap a := setCode_heap L S p s [] inst ds
  have hempty : ∀ x ∈ ds, ∀ r ∈ L.refs x, (if r = s then [] else S.heap r) = [] := by
    intro x hx r hr
    by_cases h : r = s
    · simp [h]
    · simp [h, (ht x hx).2 r hr h]
  rw [composedCode_none _ _ _ (fun r hr => by rw [hheap]; exact hempty d hd r hr)]
  unfold linesOf
  rw [setCode_addr L S p s [] inst ds hn hp d, setCode_addr L S p s [] inst ds hn hp p, if_pos (c := p = p ∨ _) (.inl rfl),
    if_pos]
  right
  rw [takeWhile_all _ _ (fun x hx => ?_)]
  · exact hd
  · simp only [decide_eq_true_eq]
    rintro (h | ⟨r, hr, h⟩ | h)
    · rw [(ht x hx).1] at h; cases h
    · exact h (hempty x hx r hr)
    · refine h.2 ?_
      have : addr L S x = chosen L (fun a => if a = s then [] else S.heap a) p s [] (inst.map (addr L S)) := h.1
      rw [← this, hs x hx]
      exact if_pos rfl

/-- C102, where it fails: dependents after one which is not there or has code of its own are left with the cleared list and
show no code, whatever the node shows. -/
theorem C102_stop_violation (L : Layout) (S : St) (p : Str) (s : Nat) (inst : Option Str) (pre post : List Str)
    (d q : Str) (hn : (pre ++ d :: post).Nodup) (hp : p ∉ pre ++ d :: post)
    (hd : L.there d = false ∨ ∃ r ∈ L.refs d, r ≠ s ∧ S.heap r ≠ []) (hq : q ∈ post) (ha : addr L S q = s) :
    linesOf L (setCode L S p s [] inst (pre ++ d :: post)) q = [] := by
  unfold linesOf
  rw [setCode_addr L S p s [] inst _ hn hp, if_neg, setCode_heap]
  · exact if_pos ha
  · rintro (h | h)
    · exact hp (by rw [← h]; simp [hq])
    · refine not_taken _ pre post d q hn ?_ hq h
      simp only [decide_eq_false_iff_not, Classical.not_not]
      rcases hd with hd | ⟨r, hr, hrs, hne⟩
      · exact .inl hd
      · exact .inr (.inl ⟨r, hr, by show (if r = s then [] else S.heap r) ≠ []
                                    rw [if_neg hrs]; exact hne⟩)

/-- `/a` has the specs 1 and 2 with code; `/i`, `/j` and `/k` are instances of it, `/j` with code of its own.  Clearing spec 1 shows
the code of spec 2 at `/a` and `/i`, and none at `/k`.  `/j`, cleared, shows the code of `/a`; but with code in a weaker
layer it should show that. -/
example :
    let L : Layout := ⟨fun _ => true, fun p => if p = "/a".toList then [1, 2] else if p = "/j".toList then [3, 4] else [5]⟩
    let S : St := ⟨fun a => if a = 1 then ["top".toList] else if a = 2 then ["low".toList] else if a = 3 then ["own".toList] else [],
      fun p => if p = "/j".toList then some 3 else some 1⟩
    let S1 := setCode L S "/a".toList 1 [] none ["/i".toList, "/j".toList, "/k".toList]
    let S4 : St := { S with heap := fun a => if a = 4 then ["weak".toList] else S.heap a }
    linesOf L S1 "/a".toList = ["low".toList] ∧ linesOf L S1 "/i".toList = ["low".toList] ∧ linesOf L S1 "/k".toList = [] ∧
    linesOf L (setCode L S "/j".toList 3 [] (some "/a".toList) []) "/j".toList = ["top".toList] ∧
    linesOf L (setCode L S4 "/j".toList 3 [] (some "/a".toList) []) "/j".toList = ["top".toList] ∧
    composedCode (setCode L S4 "/j".toList 3 [] (some "/a".toList) []).heap [3, 4] (some ["top".toList]) = ["weak".toList] ∧
    linesOf L (setCode L S "/a".toList 1 [] none ["/i".toList, "/k".toList]) "/k".toList = ["low".toList] := by
  decide +kernel

/-! ## C103: setting the enabled state -/

theorem contains_prefix (p q : Str) : contains (p ++ q) p = true := contains_iff.2 ⟨[], q, by simp⟩

/-- The enabled states are set when nothing outside the node and the nodes above it has another opinion. -/
theorem updates_true (path : Str) (state : Option Bool) (specs : List (Option Bool)) (k : Nat) (above src : List Infl)
    (ha : ∀ n ∈ above, n.path <+: path) (hs : ∀ n ∈ src, n.skip = true ∨ n.state = none ∨ n.state = state) :
    updates path state (resolution path specs k above src) = true := by
  unfold updates resolution
  rw [List.all_eq_true]
  intro n hn
  rw [List.mem_append, List.mem_append] at hn
  rcases hn with (hn | hn) | hn
  · obtain ⟨j, hj, rfl⟩ := List.mem_mapIdx.1 hn
    have := contains_prefix path []
    rw [List.append_nil] at this
    simp [this]
  · obtain ⟨r, hr⟩ := ha n hn
    have := contains_prefix n.path r
    rw [hr] at this
    simp [this]
  · rcases hs n hn with h | h | h <;> simp [h]

/-- C103, as far as it goes: setting the state in a layer, when no stronger layer has an opinion and the instance source has no
other, shows at the node what a composition gives.  Missing: opinions of stronger layers and of the source, and taking
the opinion away, see the violations. -/
theorem C103_node_partial (path : Str) (b : Bool) (specs : List (Option Bool)) (k : Nat) (above src : List Infl) (inst : Option Bool)
    (dirties : List Str) (f : Str → Option Bool) (hk : k < specs.length) (hstrong : ∀ o ∈ specs.take k, o = none)
    (ha : ∀ n ∈ above, n.path <+: path) (hs : ∀ n ∈ src, n.skip = true ∨ n.state = none ∨ n.state = some b) :
    setEnabled path (some b) (resolution path specs k above src) dirties f path =
      composedState (specs.set k (some b)) inst := by
  unfold setEnabled
  rw [updates_true path (some b) specs k above src ha hs]
  simp only [if_true, true_or, composedState]
  have : (specs.set k (some b)).findSome? id = some b := by
    rw [List.set_eq_take_append_cons_drop, if_pos hk, List.findSome?_append, (List.findSome?_eq_none_iff (p := id)).2 (fun o ho => hstrong o ho)]
    rfl
  rw [this]
  rfl

/-- C103: nodes which are neither the node nor depend on it keep their state. -/
theorem C103_others (path : Str) (state : Option Bool) (mro : List Infl) (dirties : List Str) (f : Str → Option Bool) (q : Str)
    (hq : q ≠ path) (hd : q ∉ dirties) : setEnabled path state mro dirties f q = f q := by
  unfold setEnabled
  split
  · simp [hq, hd]
  · rfl

/-- C103, where it fails: the state set is shown although a stronger layer has the other, as all specs of the node are
passed over like the nodes above. -/
theorem C103_stronger_violation (path : Str) (b : Bool) (specs : List (Option Bool)) (j k : Nat) (above src : List Infl)
    (inst : Option Bool) (dirties : List Str) (f : Str → Option Bool) (hjk : j < k) (hk : k < specs.length)
    (hj : specs[j]? = some (some (!b))) (hfirst : ∀ o ∈ specs.take j, o = none)
    (ha : ∀ n ∈ above, n.path <+: path) (hs : ∀ n ∈ src, n.skip = true ∨ n.state = none ∨ n.state = some b) :
    setEnabled path (some b) (resolution path specs k above src) dirties f path = some b ∧
    composedState (specs.set k (some b)) inst = some (!b) := by
  constructor
  · unfold setEnabled
    rw [updates_true path (some b) specs k above src ha hs]
    simp
  · unfold composedState
    have h1 : (specs.set k (some b)).take j = specs.take j := by
      rw [List.take_set_of_le (by omega)]
    have h2 : (specs.set k (some b))[j]? = some (some (!b)) := by
      rw [List.getElem?_set_ne (by omega)]; exact hj
    have h3 : specs.set k (some b) = specs.take j ++ some (!b) :: (specs.set k (some b)).drop (j + 1) := by
      rw [← h1]
      obtain ⟨hlt, he⟩ := List.getElem?_eq_some_iff.1 h2
      conv => lhs; rw [← List.take_append_drop j (specs.set k (some b)), List.drop_eq_getElem_cons hlt, he]
    rw [h3, List.findSome?_append, (List.findSome?_eq_none_iff (p := id)).2 (fun o ho => hfirst o ho)]
    rfl

/-- C103, where it fails: with another opinion at the instance source nothing is shown of the state set, though it is
stronger. -/
theorem C103_source_violation (path : Str) (b : Bool) (specs : List (Option Bool)) (above src : List Infl) (inst : Option Bool)
    (dirties : List Str) (f : Str → Option Bool) (n : Infl) (hn : n ∈ src) (h1 : n.skip = false) (h2 : contains path n.path = false)
    (h3 : n.state = some (!b)) (hlen : 0 < specs.length) :
    setEnabled path (some b) (resolution path specs 0 above src) dirties f = f ∧
    composedState (specs.set 0 (some b)) inst = some b := by
  constructor
  · unfold setEnabled
    rw [if_neg]
    rw [Bool.not_eq_true, updates, List.all_eq_false]
    refine ⟨n, by simp [resolution, hn], ?_⟩
    cases b <;> simp [h1, h2, h3]
  · obtain ⟨o, os, rfl⟩ := List.exists_cons_of_ne_nil (List.ne_nil_of_length_pos hlen)
    rfl

/-- C103, where it fails: taking the opinion of a layer away shows none, though a weaker layer has one. -/
theorem C103_cleared_violation (path : Str) (c : Bool) (specs : List (Option Bool)) (k : Nat) (above : List Infl) (inst : Option Bool)
    (dirties : List Str) (f : Str → Option Bool) (ha : ∀ n ∈ above, n.path <+: path) (hc : some c ∈ specs.set k none) :
    setEnabled path none (resolution path specs k above []) dirties f path = none ∧
    composedState (specs.set k none) inst ≠ none := by
  constructor
  · unfold setEnabled
    rw [updates_true path none specs k above [] ha (fun _ h => nomatch h)]
    simp
  · unfold composedState
    intro h
    rw [Option.or_eq_none_iff] at h
    exact absurd (List.findSome?_eq_none_iff.1 h.1 _ hc) (by simp)

/-- C103, where it fails: every dependent gets the state, whatever its own layers say. -/
theorem C103_dependents_violation (path : Str) (b : Bool) (specs : List (Option Bool)) (k : Nat) (above src : List Infl)
    (dirties : List Str) (f : Str → Option Bool) (ha : ∀ n ∈ above, n.path <+: path)
    (hs : ∀ n ∈ src, n.skip = true ∨ n.state = none ∨ n.state = some b) (q : Str) (hq : q ∈ dirties) (rest : List (Option Bool)) :
    setEnabled path (some b) (resolution path specs k above src) dirties f q = some b ∧
    composedState (some (!b) :: rest) (some b) = some (!b) := by
  constructor
  · unfold setEnabled
    rw [updates_true path (some b) specs k above src ha hs]
    simp [hq]
  · rfl

/-- Setting the weaker of two specs of `/a`, the instance `/i` of which is disabled: all agree.  With `/i` an instance of `/a`
which is disabled, enabling it shows nothing; with `/x/a` in its place the source is taken for a node above. -/
example :
    let above : List Infl := [⟨false, ['/'], some false⟩]
    let src : List Infl := [⟨false, "/a".toList, some false⟩, ⟨true, [], none⟩]
    let f : Str → Option Bool := fun q => if q = "/i".toList then some false else none
    setEnabled "/a".toList (some true) (resolution "/a".toList [none, some false] 1 above []) ["/i".toList] f "/a".toList = some true ∧
    setEnabled "/a".toList (some true) (resolution "/a".toList [none, some false] 1 above []) ["/i".toList] f "/i".toList = some true ∧
    setEnabled "/i".toList (some true) (resolution "/i".toList [none] 0 above src) [] f "/i".toList = some false ∧
    setEnabled "/x/a".toList (some true) (resolution "/x/a".toList [none] 0 above src) [] f "/x/a".toList = some true := by
  decide +kernel

end Nxt.Props
