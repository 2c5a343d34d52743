import Verif.Spec.Opinions
import Verif.Lemmas.Mro
import Verif.Lemmas.Dict
/-!
# Properties C104–C106: names of attributes, layers with opinions, historical opinions
-/
namespace Nxt.Props
open Opinions Spec Dict Mro Py

/-! ## C104: names of attributes -/

theorem mem_collect (bad names attrs : List Str) (a : Str) :
    a ∈ collect bad names attrs ↔ a ∈ attrs ∨ (a ∈ names ∧ a ∉ bad ∧ endsWith a "__nxt".toList = false) := by
  unfold collect
  induction names generalizing attrs with
  | nil => simp
  | cons n ns ih =>
    rw [List.foldl_cons, ih]
    split
    · next h =>
      constructor
      · rintro (h' | h')
        · exact .inl h'
        · exact .inr ⟨List.mem_cons_of_mem _ h'.1, h'.2⟩
      · rintro (h' | ⟨h1, h2⟩)
        · exact .inl h'
        · rcases List.mem_cons.1 h1 with rfl | h1
          · exact .inl h
          · exact .inr ⟨h1, h2⟩
    · split
      · next hb =>
        constructor
        · rintro (h' | h')
          · exact .inl h'
          · exact .inr ⟨List.mem_cons_of_mem _ h'.1, h'.2⟩
        · rintro (h' | ⟨h1, h2⟩)
          · exact .inl h'
          · rcases List.mem_cons.1 h1 with rfl | h1
            · exact absurd hb h2.1
            · exact .inr ⟨h1, h2⟩
      · next hb =>
        split
        · next he =>
          constructor
          · rintro (h' | h')
            · exact .inl h'
            · exact .inr ⟨List.mem_cons_of_mem _ h'.1, h'.2⟩
          · rintro (h' | ⟨h1, h2⟩)
            · exact .inl h'
            · rcases List.mem_cons.1 h1 with rfl | h1
              · rw [he] at h2; exact absurd h2.2 (by simp)
              · exact .inr ⟨h1, h2⟩
        · next he =>
          rw [List.mem_append, List.mem_singleton]
          constructor
          · rintro ((h' | rfl) | h')
            · exact .inl h'
            · exact .inr ⟨List.mem_cons_self, hb, by simpa using he⟩
            · exact .inr ⟨List.mem_cons_of_mem _ h'.1, h'.2⟩
          · rintro (h' | ⟨h1, h2⟩)
            · exact .inl (.inl h')
            · rcases List.mem_cons.1 h1 with rfl | h1
              · exact .inl (.inr rfl)
              · exact .inr ⟨h1, h2⟩

theorem nodup_collect (bad names attrs : List Str) (h : attrs.Nodup) : (collect bad names attrs).Nodup := by
  unfold collect
  induction names generalizing attrs with
  | nil => exact h
  | cons n ns ih =>
    rw [List.foldl_cons]
    apply ih
    split
    · exact h
    · next hn =>
      split
      · exact h
      · split
        · exact h
        · rw [List.nodup_append]
          exact ⟨h, by simp, fun x hx y hy he => hn (by rw [List.mem_singleton.1 hy] at he; exact he ▸ hx)⟩

/-- C104: the names of a node are those shown to the user among its names, once each. -/
theorem C104_attr_names (prot names : List Str) :
    (attrNames prot names).Nodup ∧ ∀ a, a ∈ attrNames prot names ↔ a ∈ names ∧ Shown prot a := by
  refine ⟨nodup_collect _ _ _ List.nodup_nil, fun a => ?_⟩
  unfold attrNames Shown
  rw [mem_collect]
  simp

/-- C104: a class has the names in its own table and those of its bases. -/
theorem C104_dir (g : Classes) (c : Nat) (l : List Nat) (hl : g.mro c = some l) (hb : ∀ b ∈ g.bases c, (g.mro b).isSome) (a : Str) :
    a ∈ dir g c ↔ a ∈ keys (g.own c) ∨ ∃ b ∈ g.bases c, a ∈ dir g b := by
  unfold dir
  rw [hl]
  obtain ⟨f', m, hf, rfl, _, hs, hlb, hx⟩ := lin_parts hl
  simp only [Option.getD_some, List.mem_flatMap, List.mem_cons, exists_eq_or_imp]
  constructor
  · rintro (h | ⟨d, hd, h⟩)
    · exact .inl h
    · right
      rcases hx d hd with h' | ⟨b, hbm, lb, hlb', hd'⟩
      · obtain ⟨lb, hlb2⟩ := Option.isSome_iff_exists.1 (hb d h')
        exact ⟨d, h', d, by rw [hlb2]; exact lin_self hlb2, h⟩
      · obtain ⟨lb2, hlb2⟩ := Option.isSome_iff_exists.1 (hb b hbm)
        have := lin_det hlb' hlb2
        subst this
        exact ⟨b, hbm, d, by rw [hlb2]; exact hd', h⟩
  · rintro (h | ⟨b, hbm, d, hd, h⟩)
    · exact .inl h
    · right
      obtain ⟨lb, hlb', hsub⟩ := hlb b hbm
      obtain ⟨lb2, hlb2⟩ := Option.isSome_iff_exists.1 (hb b hbm)
      have := lin_det hlb' hlb2
      subst this
      rw [hlb2] at hd
      exact ⟨d, hsub.subset hd, h⟩

theorem above_sound (E : Env) (f : Nat) : ∀ p q, above E f p = some q → Nearest E p q := by
  induction f with
  | zero => intro p q h; cases h
  | succ f ih =>
    intro p q h
    rw [above] at h
    split at h
    · next ht => cases h; exact .here ht
    · next ht =>
      split at h
      · cases h
      · next hw => exact .up (by simpa using ht) hw (ih _ _ h)

theorem above_complete (E : Env) {p q : Str} (h : Nearest E p q) : ∀ f, (if p = Path.WORLD then 0 else p.length + 1) < f → above E f p = some q := by
  induction h with
  | here ht =>
    intro f hf
    cases f with
    | zero => omega
    | succ f => rw [above, if_pos ht]
  | @up p q ht hw _ ih =>
    intro f hf
    have hw' : ¬ p = Path.WORLD := hw
    rw [if_neg hw'] at hf
    cases f with
    | zero => omega
    | succ f =>
      rw [above, if_neg (by simp [ht]), if_neg hw']
      apply ih
      split
      · omega
      · next h2 =>
        unfold Path.parentPath at h2 ⊢
        rw [if_neg hw'] at h2 ⊢
        split
        · next h3 => rw [if_pos h3] at h2; exact absurd rfl h2
        · next h3 =>
          have := Path.rpartHead_length p (by rintro rfl; exact h3 rfl)
          omega

theorem above_iff (E : Env) (p q : Str) : above E (p.length + 2) p = some q ↔ Nearest E p q :=
  ⟨above_sound E _ p q, fun h => above_complete E h _ (by split <;> omega)⟩

/-- The nearest node is there and there is only one. -/
theorem nearest_here (E : Env) {p q : Str} (h : Nearest E p q) (ht : E.there p = true) : q = p := by
  cases h with
  | here _ => rfl
  | up h' => rw [ht] at h'; cases h'

/-- What instancing and inheritance give are names of the node. -/
theorem parts_sound (E : Env) (hE : NamesOk E) (f : Nat) : ∀ p, E.there p = true →
    (∀ a ∈ (parts E f p).1, Shown E.prot a ∧ a ∈ E.names p) ∧ (∀ a ∈ (parts E f p).2, Shown E.prot a ∧ a ∈ E.names p) := by
  induction f with
  | zero => intro p _; exact ⟨(fun a ha => nomatch ha), (fun a ha => nomatch ha)⟩
  | succ f ih =>
    intro p hp
    rw [parts]
    simp only
    generalize hup : (if E.there (E.parent p) = true then parts E f (E.parent p) else ([], [])) = up
    generalize hin : (if E.there (E.parent p) = true then E.loc (E.parent p) ++ up.2 else []) = inh
    have h1 : ∀ a ∈ up.1.filter (· ∉ inh), Shown E.prot a ∧ a ∈ E.names p := by
      intro a ha
      have ha := (List.mem_filter.1 ha).1
      by_cases ht : E.there (E.parent p) = true
      · rw [if_pos ht] at hup
        obtain ⟨hs, hn⟩ := (ih _ ht).1 a (hup ▸ ha)
        exact ⟨hs, (hE.names p hp a hs).2 (.inr (.inl ⟨_, .here ht, hn⟩))⟩
      · rw [if_neg ht] at hup
        subst hup
        cases ha
    constructor
    · intro a ha
      cases hi : E.inst p with
      | none => rw [hi] at ha; exact h1 a ha
      | some i =>
        rw [hi] at ha
        simp only at ha
        by_cases hti : E.there i = true
        · rw [if_pos hti, mem_collect] at ha
          rcases ha with ha | ⟨ha, hb, he⟩
          · exact h1 a ha
          · have hs : Shown E.prot a := ⟨fun h => hb (by simp [h]), he⟩
            exact ⟨hs, (hE.names p hp a hs).2 (.inr (.inr ⟨i, hi, hti, ha⟩))⟩
        · rw [if_neg hti] at ha
          exact h1 a ha
    · intro a ha
      cases hq : above E ((E.parent p).length + 2) (E.parent p) with
      | none => rw [hq] at ha; cases ha
      | some q =>
        rw [hq] at ha
        simp only at ha
        rw [mem_collect] at ha
        rcases ha with ha | ⟨ha, hb, he⟩
        · cases ha
        · have hs : Shown E.prot a := ⟨fun h => hb (by simp [h]), he⟩
          exact ⟨hs, (hE.names p hp a hs).2 (.inr (.inl ⟨q, (above_iff E _ _).1 hq, ha⟩))⟩

/-- C104: each name shown at a node is local, instanced or inherited, and nothing else is. -/
theorem C104_cover (E : Env) (hE : NamesOk E) (f : Nat) (p : Str) (hp : E.there p = true) (a : Str) :
    (a ∈ E.loc p ∨ a ∈ (parts E (f + 1) p).1 ∨ a ∈ (parts E (f + 1) p).2) ↔ a ∈ E.names p ∧ Shown E.prot a := by
  obtain ⟨s1, s2⟩ := parts_sound E hE (f + 1) p hp
  constructor
  · rintro (h | h | h)
    · exact ⟨(hE.names p hp a (hE.shown p a h)).2 (.inl h), hE.shown p a h⟩
    · exact ⟨(s1 a h).2, (s1 a h).1⟩
    · exact ⟨(s2 a h).2, (s2 a h).1⟩
  · rintro ⟨hn, hs⟩
    have hsh := hs
    by_cases hloc : a ∈ E.loc p
    · exact .inl hloc
    · right
      by_cases h1 : a ∈ (parts E (f + 1) p).1
      · exact .inl h1
      · right
        have hup : ∀ q, Nearest E (E.parent p) q → a ∈ E.names q → a ∈ (parts E (f + 1) p).2 := by
          intro q hq ha
          rw [parts] at h1 ⊢
          simp only at h1 ⊢
          rw [(above_iff E _ _).2 hq]
          simp only
          rw [mem_collect]
          refine .inr ⟨ha, ?_, hs.2⟩
          rw [List.mem_append, List.mem_append]
          rintro ((h | h) | h)
          · exact hs.1 h
          · exact h1 h
          · exact hloc h
        rcases (hE.names p hp a hs).1 hn with h | ⟨q, hq, h⟩ | ⟨i, hi, hti, h⟩
        · exact absurd h hloc
        · exact hup q hq h
        · have h1' := h1
          rw [parts] at h1'
          simp only at h1'
          rw [hi] at h1'
          simp only at h1'
          rw [if_pos hti, mem_collect] at h1'
          have hb := Classical.byContradiction (fun hb => h1' (.inr ⟨h, hb, hs.2⟩))
          rw [List.mem_append, List.mem_append] at hb
          rcases hb with (hb | hb) | hb
          · exact absurd hb hs.1
          · by_cases ht : E.there (E.parent p) = true
            · rw [if_pos ht, if_pos ht, List.mem_append] at hb
              refine hup _ (.here ht) ?_
              rcases hb with hb | hb
              · exact (hE.names _ ht a hs).2 (.inl hb)
              · exact ((parts_sound E hE f _ ht).2 a hb).2
            · rw [if_neg ht] at hb; cases hb
          · exact absurd hb hloc

/-- C104: inherited names are neither local nor instanced. -/
theorem C104_inherited (E : Env) (f : Nat) (p a : Str) (ha : a ∈ (parts E f p).2) : a ∉ E.loc p ∧ a ∉ (parts E f p).1 := by
  cases f with
  | zero => cases ha
  | succ f =>
    rw [parts] at ha ⊢
    simp only at ha ⊢
    generalize above E ((E.parent p).length + 2) (E.parent p) = q at ha
    cases q with
    | none => cases ha
    | some q =>
      simp only at ha
      rw [mem_collect] at ha
      rcases ha with ha | ⟨_, hb, _⟩
      · cases ha
      · rw [List.mem_append, List.mem_append] at hb
        exact ⟨fun h => hb (.inr h), fun h => hb (.inl (.inr h))⟩

/-- C104: names are listed once. -/
theorem C104_nodup (E : Env) (f : Nat) : ∀ p, (parts E f p).1.Nodup ∧ (parts E f p).2.Nodup := by
  induction f with
  | zero => exact fun _ => ⟨List.nodup_nil, List.nodup_nil⟩
  | succ f ih =>
    intro p
    rw [parts]
    simp only
    generalize hup : (if E.there (E.parent p) = true then parts E f (E.parent p) else ([], [])) = up
    have h1 : up.1.Nodup := by
      rw [← hup]
      split
      · exact (ih _).1
      · exact List.nodup_nil
    constructor
    · cases E.inst p with
      | none => exact h1.filter _
      | some i =>
        simp only
        split
        · exact nodup_collect _ _ _ (h1.filter _)
        · exact h1.filter _
    · generalize above E ((E.parent p).length + 2) (E.parent p) = q
      cases q with
      | none => exact List.nodup_nil
      | some q => exact nodup_collect _ _ _ List.nodup_nil

/-- C104, as far as it goes: instanced names are not local when the parent has none of the local names by instancing.
Missing: local names which the parent instances, see `C104_local_violation`. -/
theorem C104_instanced_partial (E : Env) (f : Nat) (p a : Str) (ha : a ∈ (parts E (f + 1) p).1)
    (hp : ∀ b ∈ E.loc p, b ∉ (parts E f (E.parent p)).1) : a ∉ E.loc p := by
  intro hl
  rw [parts] at ha
  simp only at ha
  generalize hup : (if E.there (E.parent p) = true then parts E f (E.parent p) else ([], [])) = up at ha
  generalize (if E.there (E.parent p) = true then E.loc (E.parent p) ++ up.2 else []) = inh at ha
  have h0 : a ∉ up.1.filter (· ∉ inh) := by
    intro h
    have h := (List.mem_filter.1 h).1
    rw [← hup] at h
    split at h
    · exact hp a hl h
    · cases h
  cases hi : E.inst p with
  | none => rw [hi] at ha; exact h0 ha
  | some i =>
    rw [hi] at ha
    simp only at ha
    split at ha
    · rw [mem_collect] at ha
      rcases ha with ha | ⟨_, hb, _⟩
      · exact h0 ha
      · exact hb (by simp [hl])
    · exact h0 ha

/-- C104, where it fails: a local name which the parent has by instancing, and neither holds nor inherits, is listed as
instanced too. -/
theorem C104_local_violation (E : Env) (f : Nat) (p a : Str) (hpar : E.there (E.parent p) = true)
    (ha : a ∈ (parts E f (E.parent p)).1) (hl : a ∉ E.loc (E.parent p)) : a ∈ (parts E (f + 1) p).1 := by
  have hh := fun h => (C104_inherited E f (E.parent p) a h).2 ha
  rw [parts]
  simp only
  rw [if_pos hpar, if_pos hpar]
  have h0 : a ∈ (parts E f (E.parent p)).1.filter (· ∉ E.loc (E.parent p) ++ (parts E f (E.parent p)).2) := by
    rw [List.mem_filter]
    refine ⟨ha, ?_⟩
    rw [decide_eq_true_eq, List.mem_append]
    exact fun h => h.elim hl hh
  cases E.inst p with
  | none => exact h0
  | some i =>
    simp only
    split
    · rw [mem_collect]; exact .inl h0
    · exact h0

/-- C104, where it fails: below a path without node, names of the instance source count as instanced though the nearest node
above, whose class comes first, has them. -/
theorem C104_implied_violation (E : Env) (f : Nat) (p i a : Str) (hpar : E.there (E.parent p) = false) (hi : E.inst p = some i)
    (hti : E.there i = true) (ha : a ∈ E.names i) (hs : Shown E.prot a) (hl : a ∉ E.loc p) : a ∈ (parts E (f + 1) p).1 := by
  rw [parts]
  simp only
  rw [hi, if_neg (by simp [hpar]), if_neg (by simp [hpar])]
  simp only
  rw [if_pos hti, mem_collect]
  refine .inr ⟨ha, ?_, hs.2⟩
  simp [hs.1, hl]

/-- C104, where it fails: asking for the names of a node asks about its parent twice, so the number of calls grows with the
power of the depth. -/
theorem C104_calls_violation (d : Nat) : (calls d).1 + 2 = 3 * 2 ^ d ∧ (calls d).2 = (calls d).1 + 1 := by
  induction d with
  | zero => decide
  | succ d ih =>
    obtain ⟨h1, h2⟩ := ih
    rw [calls]
    simp only
    rw [Nat.pow_succ]
    omega

/-- `/p` with `y` is an instance of `/s` with `x`; `/p/c` holds `x` and `z`.  `x` is local and instanced. -/
def exNamesEnv : Env where
  prot := ["_name".toList]
  there := fun p => p ∈ ["/".toList, "/s".toList, "/p".toList, "/p/c".toList, "/q/r".toList]
  parent := fun p => if p = "/".toList then [] else Path.parentPath p
  inst := fun p => if p = "/p".toList ∨ p = "/q/r".toList then some "/s".toList else none
  loc := fun p => if p = "/s".toList then ["x".toList] else if p = "/p".toList then ["y".toList]
    else if p = "/p/c".toList then ["x".toList, "z".toList] else if p = "/".toList then ["w".toList] else []
  names := fun p => if p = "/s".toList then ["x".toList, "w".toList, "_name".toList]
    else if p = "/p".toList then ["y".toList, "w".toList, "x".toList, "x_source__nxt".toList]
    else if p = "/p/c".toList then ["x".toList, "z".toList, "y".toList, "w".toList]
    else if p = "/q/r".toList then ["w".toList, "x".toList]
    else ["w".toList]

example : parts exNamesEnv 3 "/p/c".toList = (["x".toList], ["y".toList, "w".toList]) ∧
    parts exNamesEnv 3 "/p".toList = (["x".toList], ["w".toList]) ∧
    parts exNamesEnv 3 "/q/r".toList = (["x".toList, "w".toList], []) := by decide +kernel

theorem nearest_names (E : Env) (p a : Str) : (∃ q, Nearest E p q ∧ a ∈ E.names q) ↔
    a ∈ ((above E (p.length + 2) p).map E.names).getD [] := by
  constructor
  · rintro ⟨q, hq, h⟩
    rw [(above_iff E p q).2 hq]
    exact h
  · intro h
    cases hq : above E (p.length + 2) p with
    | none => rw [hq] at h; cases h
    | some q => rw [hq] at h; exact ⟨q, (above_iff E p q).1 hq, h⟩

theorem exNamesEnv_ok : NamesOk exNamesEnv := by
  refine ⟨fun p a ha => ?_, fun p hp a hs => ?_⟩
  · have : a ∈ ["x".toList, "y".toList, "z".toList, "w".toList] := by
      simp only [exNamesEnv] at ha
      split at ha
      · simp only [List.mem_singleton] at ha; simp [ha]
      · split at ha
        · simp only [List.mem_singleton] at ha; simp [ha]
        · split at ha
          · simp only [List.mem_cons, List.not_mem_nil, or_false] at ha; rcases ha with rfl | rfl <;> simp
          · split at ha
            · simp only [List.mem_singleton] at ha; simp [ha]
            · cases ha
    have key : ∀ b ∈ ["x".toList, "y".toList, "z".toList, "w".toList], b ∉ exNamesEnv.prot ∧ endsWith b "__nxt".toList = false := by
      decide +kernel
    exact key a this
  · have hp' : p ∈ ["/".toList, "/s".toList, "/p".toList, "/p/c".toList, "/q/r".toList] :=
      of_decide_eq_true hp
    have h1 : a ≠ "_name".toList := fun h => hs.1 (by rw [h]; decide +kernel)
    have h2 : a ≠ "x_source__nxt".toList := fun h => by
      have := hs.2; rw [h] at this; revert this; decide +kernel
    rw [nearest_names]
    have hi : (∃ i, exNamesEnv.inst p = some i ∧ exNamesEnv.there i = true ∧ a ∈ exNamesEnv.names i) ↔
        a ∈ (((exNamesEnv.inst p).filter exNamesEnv.there).map exNamesEnv.names).getD [] := by
      cases exNamesEnv.inst p with
      | none => simp
      | some i => cases h : exNamesEnv.there i <;> simp [h, Option.filter]
    rw [hi]
    have key : ∀ p ∈ ["/".toList, "/s".toList, "/p".toList, "/p/c".toList, "/q/r".toList],
        (∀ b ∈ exNamesEnv.names p, b = "_name".toList ∨ b = "x_source__nxt".toList ∨
          b ∈ exNamesEnv.loc p ∨ b ∈ ((above exNamesEnv ((exNamesEnv.parent p).length + 2) (exNamesEnv.parent p)).map exNamesEnv.names).getD [] ∨
          b ∈ (((exNamesEnv.inst p).filter exNamesEnv.there).map exNamesEnv.names).getD []) ∧
        (∀ b ∈ exNamesEnv.loc p, b ∈ exNamesEnv.names p) ∧
        (∀ b ∈ ((above exNamesEnv ((exNamesEnv.parent p).length + 2) (exNamesEnv.parent p)).map exNamesEnv.names).getD [],
          b = "_name".toList ∨ b = "x_source__nxt".toList ∨ b ∈ exNamesEnv.names p) ∧
        (∀ b ∈ (((exNamesEnv.inst p).filter exNamesEnv.there).map exNamesEnv.names).getD [],
          b = "_name".toList ∨ b = "x_source__nxt".toList ∨ b ∈ exNamesEnv.names p) := by
      decide +kernel
    obtain ⟨k1, k2, k3, k4⟩ := key p hp'
    constructor
    · intro h
      exact ((k1 a h).resolve_left h1).resolve_left h2
    · rintro (h | h | h)
      · exact k2 a h
      · exact ((k3 a h).resolve_left h1).resolve_left h2
      · exact ((k4 a h).resolve_left h1).resolve_left h2

/-! ## C105: layers with an opinion -/

theorem erase_fold (has : Nat → Bool) (todo r : List Nat) (h : ∀ x ∈ r, has x = false → r.count x = todo.count x)
    (hc : ∀ x, has x = false → todo.count x ≤ r.count x) :
    todo.foldl (fun r l => if has l then r else r.erase l) r = r.filter has := by
  induction todo generalizing r with
  | nil =>
    rw [List.foldl_nil, Eq.comm, List.filter_eq_self]
    intro x hx
    cases hb : has x with
    | true => rfl
    | false =>
      have := h x hx hb
      have h2 := List.count_pos_iff.2 hx
      rw [this] at h2
      simp at h2
  | cons l todo ih =>
    rw [List.foldl_cons]
    cases hb : has l with
    | true =>
      rw [if_pos rfl]
      apply ih
      · intro x hx hx'
        rw [h x hx hx', List.count_cons_of_ne (by rintro rfl; rw [hb] at hx'; cases hx')]
      · intro x hx'
        have := hc x hx'
        rw [List.count_cons] at this
        omega
    | false =>
      rw [if_neg (by simp)]
      have hpos : 0 < r.count l := by
        have := hc l hb
        rw [List.count_cons_self] at this
        omega
      have hl := List.count_pos_iff.1 hpos
      rw [ih]
      · obtain ⟨a, b, he, hna⟩ := List.eq_append_cons_of_mem hl
        rw [he, List.erase_append_right _ hna, List.erase_cons_head]
        simp [hb]
      · intro x hx hx'
        have h1 := h x (List.mem_of_mem_erase hx) hx'
        rw [List.count_erase, h1, List.count_cons]
        by_cases hxl : l = x
        · subst hxl; simp
        · simp [hxl]
      · intro x hx'
        have h1 := hc x hx'
        rw [List.count_cons] at h1
        rw [List.count_erase]
        omega

/-- C105: of the layers given, or all if none are given, exactly those which have the node, and an opinion on the attribute if
one is named, in their order. -/
theorem C105_layers (sub list : List Nat) (ex : Nat → Bool) (attr : Str) (has : Nat → Bool) :
    layersWithOpinion sub list ex attr has =
      (if list = [] then sub else list).filter (fun l => ex l && (attr.isEmpty || has l)) := by
  unfold layersWithOpinion
  simp only
  generalize (if list = [] then sub else list) = ls
  have h1 : ∀ acc, ls.foldl (fun r l => if ex l then r ++ [l] else r) acc = acc ++ ls.filter ex := by
    induction ls with
    | nil => simp
    | cons l ls ih =>
      intro acc
      rw [List.foldl_cons, ih]
      cases hb : ex l <;> simp [hb]
  rw [h1, List.nil_append]
  split
  · next h => subst h; simp
  · next h =>
    rw [erase_fold has _ _ (fun _ _ _ => rfl) (fun _ _ => Nat.le_refl _), List.filter_filter]
    congr 1
    funext l
    have : attr.isEmpty = false := by simpa using h
    rw [this, Bool.false_or, Bool.and_comm]

/-- C105, where it fails: no layers asked for means all layers. -/
theorem C105_empty_violation (sub : List Nat) (ex : Nat → Bool) : layersWithOpinion sub [] ex [] (fun _ => true) = sub.filter ex := by
  rw [C105_layers]
  simp

example : layersWithOpinion [1, 2, 3] [3, 2, 1, 3] (· ≠ 2) "x".toList (· ≠ 1) = [3, 3] := by decide +kernel

/-- C105: the opinion without composition is that of the strongest spec which has the attribute. -/
theorem C105_uncomped (g : Classes) (spec : Nat → Bool) (c : Nat) (a : Str) (hs : ∀ b ∈ g.bases c, spec b = true → g.bases b = [0])
    (hz : g.bases 0 = []) (hp : 2 ≤ g.size) (h0 : get? a (g.own 0) = none) :
    uncomped g spec c a = ((g.bases c).filter spec).findSome? (fun b => get? a (g.own b)) := by
  have hm0 : ∀ f, lin g.bases (f + 1) 0 = some [0] := by
    intro f
    rw [lin, hz]
    rfl
  obtain ⟨k, hk⟩ : ∃ k, g.size = k + 2 := ⟨g.size - 2, by omega⟩
  have hm : ∀ b ∈ g.bases c, spec b = true → g.attr? b a = get? a (g.own b) := by
    intro b hb hsb
    unfold Classes.attr? Classes.mro
    rw [hk, lin, hs b hb hsb]
    simp only [List.map_cons, List.map_nil, hm0, allSome, Option.map_some]
    have : merge ([[0]] ++ [[0]] : List (List Nat)) = some [0] := by decide +kernel
    rw [this]
    simp only [Option.map_some, Option.bind_some, List.findSome?_cons, h0, List.findSome?_nil]
    cases get? a (g.own b) <;> rfl
  have key : ∀ bs : List Nat, (∀ b ∈ bs, spec b = true → g.attr? b a = get? a (g.own b)) →
      (match bs.find? (fun b => spec b && (g.attr? b a).isSome) with | none => none | some b => g.attr? b a) =
        (bs.filter spec).findSome? (fun b => get? a (g.own b)) := by
    intro bs
    induction bs with
    | nil => intro _; rfl
    | cons b bs ih =>
      intro hm
      have ih := ih (fun x hx => hm x (List.mem_cons_of_mem _ hx))
      cases hb : spec b with
      | false =>
        rw [List.find?_cons_of_neg (by simp [hb]), List.filter_cons_of_neg (by simp [hb])]
        exact ih
      | true =>
        rw [List.filter_cons_of_pos hb, List.findSome?_cons]
        have h1 := hm b List.mem_cons_self hb
        cases hg : get? a (g.own b) with
        | some v => rw [List.find?_cons_of_pos (by simp [hb, h1, hg])]; simp [h1, hg]
        | none => rw [List.find?_cons_of_neg (by simp [hb, h1, hg])]; exact ih
  exact key _ hm

/-! ## C106: historical opinions -/

/-- A class and the source of its attribute are read from the same table. -/
theorem attr_holds (g : Classes) (a : Str) (hs : Sourced g a) (l : List Nat) (v : Val)
    (hv : l.findSome? (fun d => get? a (g.own d)) = some v) :
    ∃ d ∈ l, ∃ s, Holds g a d s v ∧ l.findSome? (fun d => get? (a ++ NodeData.M_SOURCE) (g.own d)) = some s := by
  induction l with
  | nil => cases hv
  | cons d l ih =>
    rw [List.findSome?_cons] at hv ⊢
    have hd := hs d
    cases hg : get? a (g.own d) with
    | some w =>
      rw [hg] at hv hd
      cases hv
      obtain ⟨s, hs'⟩ := Option.isSome_iff_exists.1 hd.symm
      have hs2 : get? (a ++ NodeData.M_SOURCE) (g.own d) = some s := hs'
      exact ⟨d, List.mem_cons_self, s, ⟨hg, hs'⟩, by rw [hs2]⟩
    | none =>
      rw [hg] at hv hd
      have hs2 : get? (a ++ NodeData.M_SOURCE) (g.own d) = none := by
        cases h : get? (a ++ NodeData.M_SOURCE) (g.own d) with
        | none => rfl
        | some s =>
          have h' : get? (a ++ "_source__nxt".toList) (g.own d) = some s := h
          rw [h'] at hd; cases hd
      obtain ⟨e, he, s, h1, h2⟩ := ih hv
      exact ⟨e, List.mem_cons_of_mem _ he, s, h1, by rw [hs2]; exact h2⟩

/-- What the loop keeps: opinions of classes of the order, none equal to an earlier one, and one equal to each read so far. -/
structure HistoryInv (g : Classes) (same : Val → Val → Bool) (a : Str) (l seen : List Nat) (h : List (Val × Val)) : Prop where
  sound : ∀ e ∈ h, e.2.hasOpinion = true ∧ ∃ d ∈ l, Holds g a d e.1 e.2
  uniq : h.Pairwise (fun e e' => ¬ (same e.1 e'.1 = true ∧ same e.2 e'.2 = true))
  full : ∀ b ∈ seen, (g.attr b a).hasOpinion = true → ∃ s, g.attr? b (a ++ NodeData.M_SOURCE) = some s ∧
    ∃ e ∈ h, same e.1 s = true ∧ same e.2 (g.attr b a) = true
  shown : ∀ e ∈ h, ∃ b ∈ seen, g.attr b a = e.2

theorem history_loop (g : Classes) (same : Val → Val → Bool) (hsame : ∀ v, same v v = true) (a : Str) (hs : Sourced g a)
    (l : List Nat) (hl : ∀ b ∈ l, ∃ lb, g.mro b = some lb ∧ lb ⊆ l) :
    ∀ (todo seen : List Nat) (h : List (Val × Val)), (∀ b ∈ todo, b ∈ l) → HistoryInv g same a l seen h →
      ∃ h', todo.foldlM (historyStep g same a) h = some h' ∧ HistoryInv g same a l (seen ++ todo) h' ∧ h <+: h' := by
  intro todo
  induction todo with
  | nil => intro seen h _ hi; exact ⟨h, rfl, by simpa using hi, List.prefix_rfl⟩
  | cons b todo ih =>
    intro seen h hm hi
    rw [List.foldlM_cons]
    have hm' : ∀ x ∈ todo, x ∈ l := fun x hx => hm x (List.mem_cons_of_mem _ hx)
    have step : ∃ h1, historyStep g same a h b = some h1 ∧ HistoryInv g same a l (seen ++ [b]) h1 ∧ h <+: h1 := by
      unfold historyStep
      by_cases ho : (g.attr b a).hasOpinion = true
      · rw [if_pos ho]
        obtain ⟨lb, hlb, hsub⟩ := hl b (hm b List.mem_cons_self)
        have hv : lb.findSome? (fun d => get? a (g.own d)) = some (g.attr b a) := by
          unfold Classes.attr Classes.attr? at ho ⊢
          rw [hlb] at ho ⊢
          simp only [Option.bind_some] at ho ⊢
          cases hf : lb.findSome? (fun d => get? a (g.own d)) with
          | none => rw [hf] at ho; cases ho
          | some v => rfl
        obtain ⟨d, hd, s, hh, hsrc⟩ := attr_holds g a hs lb _ hv
        have hs1 : g.attr? b (a ++ NodeData.M_SOURCE) = some s := by
          unfold Classes.attr?; rw [hlb]; exact hsrc
        rw [hs1]
        simp only
        by_cases ha : h.any (fun e => same e.1 s && same e.2 (g.attr b a)) = true
        · rw [if_pos ha]
          refine ⟨h, rfl, ⟨hi.sound, hi.uniq, fun x hx hxo => ?_, fun e he => ?_⟩, List.prefix_rfl⟩
          · rcases List.mem_append.1 hx with hx | hx
            · exact hi.full x hx hxo
            · rw [List.mem_singleton.1 hx]
              obtain ⟨e, he, he'⟩ := List.any_eq_true.1 ha
              rw [Bool.and_eq_true] at he'
              exact ⟨s, hs1, e, he, he'⟩
          · obtain ⟨x, hx, hx'⟩ := hi.shown e he
            exact ⟨x, List.mem_append_left _ hx, hx'⟩
        · rw [if_neg ha]
          refine ⟨_, rfl, ⟨fun e he => ?_, ?_, fun x hx hxo => ?_, fun e he => ?_⟩, List.prefix_append _ _⟩
          · rcases List.mem_append.1 he with he | he
            · exact hi.sound e he
            · rw [List.mem_singleton.1 he]
              exact ⟨ho, d, hsub hd, hh⟩
          · rw [List.pairwise_append]
            refine ⟨hi.uniq, List.pairwise_singleton _ _, fun e he e' he' hc => ha ?_⟩
            rw [List.mem_singleton.1 he'] at hc
            exact List.any_eq_true.2 ⟨e, he, by rw [Bool.and_eq_true]; exact hc⟩
          · rcases List.mem_append.1 hx with hx | hx
            · obtain ⟨s', h1, e, he, h2⟩ := hi.full x hx hxo
              exact ⟨s', h1, e, List.mem_append_left _ he, h2⟩
            · rw [List.mem_singleton.1 hx]
              exact ⟨s, hs1, (s, g.attr b a), by simp, hsame _, hsame _⟩
          · rcases List.mem_append.1 he with he | he
            · obtain ⟨x, hx, hx'⟩ := hi.shown e he
              exact ⟨x, List.mem_append_left _ hx, hx'⟩
            · rw [List.mem_singleton.1 he]
              exact ⟨b, by simp, rfl⟩
      · rw [if_neg ho]
        refine ⟨h, rfl, ⟨hi.sound, hi.uniq, fun x hx hxo => ?_, fun e he => ?_⟩, List.prefix_rfl⟩
        · rcases List.mem_append.1 hx with hx | hx
          · exact hi.full x hx hxo
          · rw [List.mem_singleton.1 hx] at hxo
            exact absurd hxo ho
        · obtain ⟨x, hx, hx'⟩ := hi.shown e he
          exact ⟨x, List.mem_append_left _ hx, hx'⟩
    obtain ⟨h1, e1, i1, p1⟩ := step
    obtain ⟨h2, e2, i2, p2⟩ := ih (seen ++ [b]) h1 hm' i1
    refine ⟨h2, ?_, by simpa using i2, p1.trans p2⟩
    rw [e1]
    exact e2

/-- C106: for an attribute of the user the history never fails; it has only opinions held by classes of the resolution order with
their sources, one equal to each of them, none twice, and first the one the node shows if that is an opinion. -/
theorem C106_history (g : Classes) (same : Val → Val → Bool) (hsame : ∀ v, same v v = true) (a : Str) (hs : Sourced g a)
    (node : Nat → Bool) (arc : Nat → Option Targeted.Arc) (c : Nat) (l : List Nat) (hl : g.mro c = some l) :
    ∃ h, history g same (wanted false node arc a) a c = some h ∧
      (∀ e ∈ h, e.2.hasOpinion = true ∧ ∃ d ∈ l, Holds g a d e.1 e.2) ∧
      (∀ d ∈ l, ∀ s v, Holds g a d s v → v.hasOpinion = true → ∃ e ∈ h, same e.1 s = true ∧ same e.2 v = true) ∧
      h.Pairwise (fun e e' => ¬ (same e.1 e'.1 = true ∧ same e.2 e'.2 = true)) ∧
      ((g.attr c a).hasOpinion = true → ∃ s, g.attr? c (a ++ "_source__nxt".toList) = some s ∧ h.head? = some (s, g.attr c a)) := by
  have hlm : ∀ b ∈ l, ∃ lb, g.mro b = some lb ∧ lb ⊆ l := by
    intro b hb
    obtain ⟨lb, h1, h2⟩ := lin_mem hl b hb
    exact ⟨lb, h1, h2.subset⟩
  have hw : l.filter (wanted false node arc a) = l := by
    rw [List.filter_eq_self]; intro x _; rfl
  have h0 : HistoryInv g same a l [] [] := ⟨(fun _ h => nomatch h), List.Pairwise.nil, (fun _ h => nomatch h), (fun _ h => nomatch h)⟩
  obtain ⟨h, he, hi, -⟩ := history_loop g same hsame a hs l hlm l [] [] (fun _ h => h) h0
  have hown : ∀ d ∈ l, ∃ m, g.mro d = some (d :: m) := by
    intro d hd
    obtain ⟨ld, h1, -⟩ := hlm d hd
    obtain ⟨_, m, _, rfl, _⟩ := lin_parts h1
    exact ⟨m, h1⟩
  refine ⟨h, by unfold history; rw [hl, Option.getD_some, hw]; exact he, hi.sound, fun d hd s v hh hv => ?_, hi.uniq, fun hc => ?_⟩
  · obtain ⟨m, hm⟩ := hown d hd
    have h1 : g.attr d a = v := by
      unfold Classes.attr Classes.attr?
      rw [hm, Option.bind_some, List.findSome?_cons, hh.1]; rfl
    obtain ⟨s', h2, e, he', h3⟩ := hi.full d (by simpa using hd) (by rw [h1]; exact hv)
    have h4 : g.attr? d (a ++ NodeData.M_SOURCE) = some s := by
      have hh2 : get? (a ++ NodeData.M_SOURCE) (g.own d) = some s := hh.2
      unfold Classes.attr?
      rw [hm, Option.bind_some, List.findSome?_cons, hh2]
    rw [h4] at h2
    cases h2
    rw [h1] at h3
    exact ⟨e, he', h3⟩
  · obtain ⟨_, m, _, rfl, _⟩ := lin_parts hl
    obtain ⟨h1, e1, i1, p1⟩ := history_loop g same hsame a hs (c :: m) hlm [c] [] [] (fun x hx => by
      rw [List.mem_singleton.1 hx]; exact List.mem_cons_self) h0
    have e1' : historyStep g same a [] c = some h1 := by
      rw [← e1]; cases h : historyStep g same a [] c <;> simp [List.foldlM, h]
    obtain ⟨s, hsrc, -⟩ := i1.full c (by simp) hc
    have hst : historyStep g same a [] c = some [(s, g.attr c a)] := by
      unfold historyStep
      rw [if_pos hc, hsrc]
      rfl
    rw [List.foldlM_cons, hst] at he
    have i0 : HistoryInv g same a (c :: m) [c] [(s, g.attr c a)] := by
      rw [hst] at e1'; cases e1'; simpa using i1
    obtain ⟨h2, e2, -, p2⟩ := history_loop g same hsame a hs (c :: m) hlm m [c] _ (fun x hx => List.mem_cons_of_mem _ hx) i0
    rw [show (some [(s, g.attr c a)] >>= fun s' => List.foldlM (historyStep g same a) s' m) = some h2 from e2] at he
    cases he
    refine ⟨s, hsrc, ?_⟩
    obtain ⟨t, rfl⟩ := p2
    rfl

/-- C106: for any attribute and arcs, the history has only opinions held by classes of the resolution order, none twice, and
one equal to what each class read shows. -/
theorem C106_read (g : Classes) (same : Val → Val → Bool) (hsame : ∀ v, same v v = true) (a : Str) (hs : Sourced g a)
    (internal : Bool) (node : Nat → Bool) (arc : Nat → Option Targeted.Arc) (c : Nat) (l : List Nat) (hl : g.mro c = some l) :
    ∃ h, history g same (wanted internal node arc a) a c = some h ∧
      (∀ e ∈ h, e.2.hasOpinion = true ∧ ∃ d ∈ l, Holds g a d e.1 e.2) ∧
      h.Pairwise (fun e e' => ¬ (same e.1 e'.1 = true ∧ same e.2 e'.2 = true)) ∧
      (∀ b ∈ l, Consulted internal node arc a b → (g.attr b a).hasOpinion = true → ∃ e ∈ h, same e.2 (g.attr b a) = true) ∧
      ∀ e ∈ h, ∃ b ∈ l, Consulted internal node arc a b ∧ g.attr b a = e.2 := by
  have hlm : ∀ b ∈ l, ∃ lb, g.mro b = some lb ∧ lb ⊆ l := by
    intro b hb
    obtain ⟨lb, h1, h2⟩ := lin_mem hl b hb
    exact ⟨lb, h1, h2.subset⟩
  have h0 : HistoryInv g same a l [] [] := ⟨(fun _ h => nomatch h), List.Pairwise.nil, (fun _ h => nomatch h), (fun _ h => nomatch h)⟩
  obtain ⟨h, he, hi, -⟩ := history_loop g same hsame a hs l hlm (l.filter (wanted internal node arc a)) [] []
    (fun _ h => (List.mem_filter.1 h).1) h0
  have hwb : ∀ b, wanted internal node arc a b = true ↔ Consulted internal node arc a b := by
    intro b
    unfold wanted Consulted
    cases internal with
    | false => simp
    | true =>
      have hpass : a ∈ Targeted.passed (arc b) ∨ arc b = some .inst ↔ arc b = some .inst ∨ (arc b = some .reference ∧
          a ∈ ["_start_point", "_enabled", "_execute_in", "_instance", "_comment", "_code"].map String.toList) := by
        constructor
        · rintro (h | h)
          · generalize arc b = x at h ⊢
            cases x with
            | none => cases h
            | some x =>
              cases x with
              | reference => exact .inr ⟨rfl, h⟩
              | inst => exact .inl rfl
              | parent => cases h
          · exact .inl h
        · rintro (h | ⟨h, h'⟩)
          · exact .inr h
          · left; rw [h]; exact h'
      rw [if_pos rfl, Bool.and_eq_true, Bool.or_eq_true, decide_eq_true_eq, decide_eq_true_eq, hpass]
      simp
  refine ⟨h, by unfold history; rw [hl, Option.getD_some]; exact he, hi.sound, hi.uniq, fun b hb hw hv => ?_, fun e he' => ?_⟩
  · obtain ⟨s, -, e, he', -, h2⟩ := hi.full b (by rw [List.nil_append]; exact List.mem_filter.2 ⟨hb, (hwb b).2 hw⟩) hv
    exact ⟨e, he', h2⟩
  · obtain ⟨b, hb, hb'⟩ := hi.shown e he'
    rw [List.nil_append] at hb
    obtain ⟨hb1, hb2⟩ := List.mem_filter.1 hb
    exact ⟨b, hb1, (hwb b).1 hb2, hb'⟩

/-- C106, as far as it goes: if the value the node shows is an opinion, it is the one left out, unless the node is a proxy or it is
asked for.  Missing: values without opinion, see `C106_empty_violation`. -/
theorem C106_local_partial (g : Classes) (same : Val → Val → Bool) (hsame : ∀ v, same v v = true) (a : Str) (hs : Sourced g a)
    (node : Nat → Bool) (arc : Nat → Option Targeted.Arc) (c : Nat) (hc : (g.attr c a).hasOpinion = true) (proxy inc : Bool) :
    ∃ s t, g.attr? c (a ++ "_source__nxt".toList) = some s ∧
      history g same (wanted false node arc a) a c = some ((s, g.attr c a) :: t) ∧
      historical g same (wanted false node arc a) a c proxy inc = some (if proxy || inc then (s, g.attr c a) :: t else t) := by
  have hm : ∃ l, g.mro c = some l := by
    cases h : g.mro c with
    | some l => exact ⟨l, rfl⟩
    | none =>
      unfold Classes.attr Classes.attr? at hc
      rw [h] at hc
      cases hc
  obtain ⟨l, hl⟩ := hm
  obtain ⟨h, he, -, -, -, h5⟩ := C106_history g same hsame a hs node arc c l hl
  obtain ⟨s, hs', hh⟩ := h5 hc
  cases h with
  | nil => cases hh
  | cons e t =>
    cases hh
    refine ⟨s, t, hs', he, ?_⟩
    unfold historical
    rw [he, Option.map_some]
    congr 1
    split
    · rfl
    · cases t <;> simp

/-- C106, where it fails: if the node shows a value without opinion, the first opinion of the others is left out in its place. -/
theorem C106_empty_violation (g : Classes) (same : Val → Val → Bool) (a : Str) (want : Nat → Bool) (c : Nat) (e : Val × Val)
    (t : List (Val × Val)) (hh : history g same want a c = some (e :: t)) :
    historical g same want a c false false = some t := by
  unfold historical
  rw [hh, Option.map_some]
  congr 1
  cases t <;> simp

/-- Equality for the values of the example. -/
def sameEx : Val → Val → Bool
  | .num a, .num b => a == b
  | .src l p, .src l' p' => l == l' && p == p'
  | _, _ => true

theorem sameEx_refl (v : Val) : sameEx v v = true := by cases v <;> simp [sameEx]

/-- A node 4 with the spec 1 below the node 3 with the spec 2, with values of `x`. -/
def exHistory (x y : Val) : Classes where
  size := 5
  bases := fun c => if c = 1 ∨ c = 2 then [0] else if c = 3 then [2] else if c = 4 then [1, 3] else []
  own := fun c =>
    if c = 1 then [("x".toList, x), ("x_source__nxt".toList, .src none "/p/c".toList)]
    else if c = 2 then [("x".toList, y), ("x_source__nxt".toList, .src none "/p".toList)] else []

theorem exHistory_sourced (x y : Val) : Sourced (exHistory x y) "x".toList := by
  intro d
  by_cases h1 : d = 1
  · subst h1; rfl
  · by_cases h2 : d = 2
    · subst h2; rfl
    · have : (exHistory x y).own d = [] := by
        show (if d = 1 then _ else if d = 2 then _ else []) = []
        rw [if_neg h1, if_neg h2]
      rw [this]
      rfl

example : (exHistory (.num 1) (.num 2)).mro 4 = some [4, 1, 3, 2, 0] ∧
    history (exHistory (.num 1) (.num 2)) sameEx (wanted false (fun _ => true) (fun _ => none) "x".toList) "x".toList 4 =
      some [(.src none "/p/c".toList, .num 1), (.src none "/p".toList, .num 2)] ∧
    historical (exHistory (.num 1) (.num 2)) sameEx (wanted false (fun _ => true) (fun _ => none) "x".toList) "x".toList 4 false false =
      some [(.src none "/p".toList, .num 2)] ∧
    historical (exHistory .none (.num 2)) sameEx (wanted false (fun _ => true) (fun _ => none) "x".toList) "x".toList 4 false false = some [] :=
  ⟨by decide +kernel, by rfl, by rfl, by rfl⟩

end Nxt.Props
