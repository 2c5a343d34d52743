import Verif.Spec.FilePaths
import Verif.Lemmas.Py
import Verif.Lemmas.Dict
/-!
# Lemmas about replacing environment variables
-/
namespace Nxt.FilePaths
open Py Spec

theorem replaceGo_skip (old new a s : Str) : replaceGo old new a.length (a ++ s) = replaceGo old new 0 s := by
  induction a with
  | nil => rfl
  | cons c cs ih => exact ih

theorem replaceGo_text (c : Char) (old new t s : Str) (h : c ∉ t) :
    replaceGo (c :: old) new 0 (t ++ s) = t ++ replaceGo (c :: old) new 0 s := by
  induction t with
  | nil => rfl
  | cons d ds ih =>
    rw [List.mem_cons, not_or] at h
    rw [List.cons_append, replaceGo, if_neg, ih h.2]; rfl
    simp [List.isPrefixOf, h.1]

theorem replaceGo_match (c : Char) (old new s : Str) :
    replaceGo (c :: old) new 0 ((c :: old) ++ s) = new ++ replaceGo (c :: old) new 0 s := by
  rw [List.cons_append, replaceGo, if_pos]
  · rw [List.length_cons, Nat.add_sub_cancel, replaceGo_skip]
  · exact isPrefixOf_iff.2 ⟨s, rfl⟩

theorem replaceGo_miss (old new : Str) (c : Char) (s : Str) (h : ¬ ∃ t, c :: s = old ++ t) :
    replaceGo old new 0 (c :: s) = c :: replaceGo old new 0 s := by
  rw [replaceGo, if_neg]
  intro hp
  exact h (isPrefixOf_iff.1 hp)

theorem varChar_of_mem : ∀ c ∈ "abcdefghijklmnopqrstuvwxyzABCDEFGHIJKLMNOPQRSTUVWXYZ_".toList, isVarChar c = true := by
  decide +kernel

theorem mem_of_varChar (c : Char) (h : isVarChar c = true) :
    c ∈ "abcdefghijklmnopqrstuvwxyzABCDEFGHIJKLMNOPQRSTUVWXYZ_".toList := by
  have key : ∀ n : Fin 128, isVarChar (Char.ofNat n.val) = true →
      Char.ofNat n.val ∈ "abcdefghijklmnopqrstuvwxyzABCDEFGHIJKLMNOPQRSTUVWXYZ_".toList := by decide +kernel
  have hlt : c.toNat < 128 := by
    simp only [isVarChar, Char.isAlpha, Char.isUpper, Char.isLower, Bool.or_eq_true, Bool.and_eq_true,
      decide_eq_true_eq] at h
    rcases h with (⟨_, h⟩ | ⟨_, h⟩) | rfl
    · have : c.val.toNat ≤ 90 := by simpa [UInt32.le_iff_toNat_le] using h
      exact Nat.lt_of_le_of_lt this (by decide)
    · have : c.val.toNat ≤ 122 := by simpa [UInt32.le_iff_toNat_le] using h
      exact Nat.lt_of_le_of_lt this (by decide)
    · decide
  have := key ⟨c.toNat, hlt⟩
  simp only [Char.ofNat_toNat] at this
  exact this h

theorem _root_.Nxt.Spec.VarName.all {v : Str} (h : VarName v) : ∀ c ∈ v, isVarChar c = true := fun c hc => varChar_of_mem c (h c hc)

theorem _root_.Nxt.Spec.VarName.not_pct {v : Str} (h : VarName v) : '%' ∉ v := fun hc => absurd (h _ hc) (by decide +kernel)

theorem _root_.Nxt.Spec.VarName.not_dollar {v : Str} (h : VarName v) : '$' ∉ v := fun hc => absurd (h _ hc) (by decide +kernel)

theorem takeWhile_var {v s : Str} (h : VarName v) (hs : ∀ c, s.head? = some c → isVarChar c = false) :
    (v ++ s).takeWhile isVarChar = v := by
  rw [List.takeWhile_append_of_pos h.all]
  cases s with
  | nil => simp
  | cons c cs => simp [hs c rfl]

/-- If `c` occurs in neither front part, the front parts up to the first `c` agree. -/
theorem front_eq {c : Char} {a b x y : Str} (ha : c ∉ a) (hb : c ∉ b) (h : a ++ c :: x = b ++ c :: y) : a = b := by
  induction a generalizing b with
  | nil =>
    cases b with
    | nil => rfl
    | cons d ds =>
      simp only [List.nil_append, List.cons_append, List.cons.injEq] at h
      exact absurd (h.1 ▸ List.mem_cons_self ..) hb
  | cons d ds ih =>
    cases b with
    | nil =>
      simp only [List.nil_append, List.cons_append, List.cons.injEq] at h
      exact absurd (h.1 ▸ List.mem_cons_self ..) ha
    | cons e es =>
      simp only [List.cons_append, List.cons.injEq] at h
      rw [List.mem_cons, not_or] at ha hb
      rw [h.1, ih ha.2 hb.2 h.2]

/-! ## Windows variables to others -/

/-- Text in which the variables picked by `f` are already replaced. -/
def mixWin (f : Str → Bool) (ps : List (Str × Str)) (tail : Str) : Str :=
  (ps.map (fun p => p.1 ++ if f p.2 then nixVar p.2 else winVar p.2)).flatten ++ tail

theorem mixWin_cons (f t v ps tail) : mixWin f ((t, v) :: ps) tail =
    t ++ ((if f v then nixVar v else winVar v) ++ mixWin f ps tail) := by
  simp [mixWin]

/-- Closing percent signs do not start an occurrence. -/
theorem no_occ (f : Str → Bool) (v : Str) (hv : VarName v) (ps : List (Str × Str)) (tail : Str)
    (ht : ∀ p ∈ ps, '%' ∉ p.1) (htail : '%' ∉ tail) (hne : ∀ p, ps.head? = some p → p.1 ≠ v) :
    ¬ ∃ r, mixWin f ps tail = v ++ '%' :: r := by
  rintro ⟨r, h⟩
  cases ps with
  | nil =>
    simp only [mixWin, List.map_nil, List.flatten_nil, List.nil_append] at h
    exact htail (h ▸ by simp)
  | cons p ps =>
    obtain ⟨t, w⟩ := p
    rw [mixWin_cons] at h
    have ht' := ht _ (List.mem_cons_self ..)
    cases hf : f w with
    | false =>
      rw [hf] at h
      simp only [Bool.false_eq_true, if_false, winVar, List.cons_append] at h
      exact hne _ rfl (front_eq ht' hv.not_pct h)
    | true =>
      rw [hf] at h
      simp only [if_true, nixVar, List.cons_append] at h
      rcases List.append_eq_append_iff.1 h with ⟨a, h1, h2⟩ | ⟨a, h1, h2⟩
      · -- `v` reaches over the text
        cases a with
        | nil =>
          simp only [List.nil_append, List.cons.injEq] at h2
          exact absurd h2.1 (by decide)
        | cons c cs =>
          simp only [List.cons_append, List.cons.injEq] at h2
          refine hv.not_dollar ?_
          rw [h1, h2.1]; simp
      · cases a with
        | nil =>
          simp only [List.nil_append, List.cons.injEq] at h2
          exact absurd h2.1 (by decide)
        | cons c cs =>
          simp only [List.cons_append, List.cons.injEq] at h2
          refine ht' ?_
          rw [h1, h2.1]; simp

theorem replace_mixWin (f : Str → Bool) (v : Str) (hv : VarName v) (ps : List (Str × Str)) (tail : Str)
    (hvars : ∀ p ∈ ps, VarName p.2) (ht : ∀ p ∈ ps, '%' ∉ p.1) (htail : '%' ∉ tail)
    (hne : ∀ p ∈ ps.tail, p.1 ≠ v) :
    replace (mixWin f ps tail) (winVar v) (nixVar v) = mixWin (fun w => f w || decide (w = v)) ps tail := by
  unfold replace
  induction ps with
  | nil =>
    have := replaceGo_text '%' (v ++ ['%']) (nixVar v) tail [] htail
    simpa [mixWin, winVar, replaceGo] using this
  | cons p ps ih =>
    obtain ⟨t, w⟩ := p
    rw [mixWin_cons, mixWin_cons]
    have ih' := ih (fun p hp => hvars p (List.mem_cons_of_mem _ hp)) (fun p hp => ht p (List.mem_cons_of_mem _ hp))
      (fun p hp => hne p (List.mem_of_mem_tail hp))
    have hw : VarName w := hvars _ (List.mem_cons_self ..)
    have e : winVar v = '%' :: (v ++ ['%']) := rfl
    rw [e] at ih' ⊢
    rw [replaceGo_text _ _ _ _ _ (ht _ (List.mem_cons_self ..))]
    congr 1
    cases hf : f w with
    | true =>
      simp only [if_true, Bool.true_or]
      rw [replaceGo_text _ _ _ _ _ (by
        simp only [nixVar, List.mem_cons, not_or]
        exact ⟨by decide, hw.not_pct⟩), ih']
    | false =>
      by_cases hwv : w = v
      · subst hwv
        simp only [Bool.false_eq_true, if_false, decide_true, Bool.or_true, if_true]
        rw [e, replaceGo_match, ih']
      · simp only [Bool.false_eq_true, if_false, hwv, decide_false, Bool.or_self]
        have hm1 : ¬ ∃ r, winVar w ++ mixWin f ps tail = winVar v ++ r := by
          rintro ⟨r, hr⟩
          simp only [winVar, List.cons_append, List.append_assoc, List.nil_append, List.cons.injEq, true_and] at hr
          exact hwv (front_eq hw.not_pct hv.not_pct hr)
        have hm2 : ¬ ∃ r, '%' :: mixWin f ps tail = winVar v ++ r := by
          rintro ⟨r, hr⟩
          simp only [winVar, List.cons_append, List.append_assoc, List.nil_append, List.cons.injEq, true_and] at hr
          refine no_occ f v hv ps tail (fun p hp => ht p (List.mem_cons_of_mem _ hp)) htail ?_ ⟨r, hr⟩
          intro p hp
          refine hne p ?_
          cases ps with
          | nil => cases hp
          | cons q qs => cases hp; exact List.mem_cons_self ..
        have e2 : winVar w ++ mixWin f ps tail = '%' :: (w ++ ('%' :: mixWin f ps tail)) := by
          simp [winVar]
        rw [e2, e] at hm1
        rw [e] at hm2
        rw [e2]
        rw [replaceGo_miss _ _ _ _ hm1, replaceGo_text _ _ _ _ _ hw.not_pct, replaceGo_miss _ _ _ _ hm2, ih']
        simp [winVar]

theorem findWin_skip (a s : Str) : findWin a.length (a ++ s) = findWin 0 s := by
  induction a with
  | nil => rfl
  | cons c cs ih => exact ih

theorem findWin_text (t s : Str) (h : '%' ∉ t) : findWin 0 (t ++ s) = findWin 0 s := by
  induction t with
  | nil => rfl
  | cons c cs ih =>
    rw [List.mem_cons, not_or] at h
    rw [List.cons_append, findWin, if_neg (fun hc => h.1 hc.1.symm), ih h.2]

theorem findWin_text_nil (t : Str) (h : '%' ∉ t) : findWin 0 t = [] := by
  have := findWin_text t [] h
  rw [List.append_nil] at this
  rw [this]; rfl

theorem findWin_winText (ps : List (Str × Str)) (tail : Str)
    (hvars : ∀ p ∈ ps, VarName p.2) (ht : ∀ p ∈ ps, '%' ∉ p.1) (htail : '%' ∉ tail) :
    findWin 0 (winText ps tail) = ps.map Prod.snd := by
  induction ps with
  | nil => simpa [winText] using findWin_text_nil tail htail
  | cons p ps ih =>
    obtain ⟨t, v⟩ := p
    have hv : VarName v := hvars _ (List.mem_cons_self ..)
    have e : winText ((t, v) :: ps) tail = t ++ ('%' :: (v ++ '%' :: winText ps tail)) := by simp [winText]
    rw [e, findWin_text _ _ (ht _ (List.mem_cons_self ..)), findWin]
    have htw : (v ++ '%' :: winText ps tail).takeWhile isVarChar = v :=
      takeWhile_var hv (by intro c hc; cases hc; decide)
    rw [htw, if_pos ⟨rfl, by rw [List.drop_left]; rfl⟩]
    have := findWin_skip (v ++ ['%']) (winText ps tail)
    simp only [List.length_append, List.length_cons, List.length_nil, List.append_assoc, List.cons_append,
      List.nil_append] at this
    rw [this, ih (fun p hp => hvars p (List.mem_cons_of_mem _ hp)) (fun p hp => ht p (List.mem_cons_of_mem _ hp))]
    rfl

/-! ## The other way round -/

/-- Text in which the variables picked by `f` are already replaced. -/
def mixNix (f : Str → Bool) (ps : List (Str × Str)) (tail : Str) : Str :=
  (ps.map (fun p => p.1 ++ if f p.2 then winVar p.2 else nixVar p.2)).flatten ++ tail

theorem mixNix_cons (f t v ps tail) : mixNix f ((t, v) :: ps) tail =
    t ++ ((if f v then winVar v else nixVar v) ++ mixNix f ps tail) := by
  simp [mixNix]

/-- The text does not go on with a letter of a variable. -/
def Stops (s : Str) : Prop := ∀ c, s.head? = some c → isVarChar c = false

theorem mixNix_stops (f : Str → Bool) (ps : List (Str × Str)) (tail : Str) (hp : ∀ p ∈ ps, Stops p.1)
    (ht : Stops tail) : Stops (mixNix f ps tail) := by
  cases ps with
  | nil => simpa [mixNix] using ht
  | cons p ps =>
    obtain ⟨t, v⟩ := p
    rw [mixNix_cons]
    intro c hc
    cases t with
    | nil =>
      cases hf : f v <;> rw [hf] at hc <;> simp [winVar, nixVar] at hc <;> subst hc <;> decide
    | cons d ds =>
      simp only [List.cons_append, List.head?_cons, Option.some.injEq] at hc
      exact hp _ (List.mem_cons_self ..) c (by simp [hc])

theorem replace_mixNix (f : Str → Bool) (v : Str) (hv : VarName v) (ps : List (Str × Str)) (tail : Str)
    (hvars : ∀ p ∈ ps, VarName p.2) (ht : ∀ p ∈ ps, '$' ∉ p.1) (htail : '$' ∉ tail)
    (hstop : ∀ p ∈ ps.tail, Stops p.1) (hstopt : Stops tail)
    (hpre : ∀ p ∈ ps, (∃ r, p.2 = v ++ r) → p.2 = v) :
    replace (mixNix f ps tail) (nixVar v) (winVar v) = mixNix (fun w => f w || decide (w = v)) ps tail := by
  unfold replace
  induction ps with
  | nil =>
    have := replaceGo_text '$' v (winVar v) tail [] htail
    simpa [mixNix, nixVar, replaceGo] using this
  | cons p ps ih =>
    obtain ⟨t, w⟩ := p
    rw [mixNix_cons, mixNix_cons]
    have ih' := ih (fun p hp => hvars p (List.mem_cons_of_mem _ hp)) (fun p hp => ht p (List.mem_cons_of_mem _ hp))
      (fun p hp => hstop p (List.mem_of_mem_tail hp)) (fun p hp => hpre p (List.mem_cons_of_mem _ hp))
    have hw : VarName w := hvars _ (List.mem_cons_self ..)
    have hs : Stops (mixNix f ps tail) := mixNix_stops f ps tail (fun p hp => hstop p hp) hstopt
    have e : nixVar v = '$' :: v := rfl
    rw [e] at ih' ⊢
    rw [replaceGo_text _ _ _ _ _ (ht _ (List.mem_cons_self ..))]
    congr 1
    cases hf : f w with
    | true =>
      simp only [if_true, Bool.true_or]
      rw [replaceGo_text _ _ _ _ _ (by
        simp only [winVar, List.mem_cons, List.mem_append, not_or]
        exact ⟨⟨by decide, hw.not_dollar⟩, by decide, nofun⟩), ih']
    | false =>
      by_cases hwv : w = v
      · subst hwv
        simp only [Bool.false_eq_true, if_false, decide_true, Bool.or_true, if_true]
        rw [e, replaceGo_match, ih']
      · simp only [Bool.false_eq_true, if_false, hwv, decide_false, Bool.or_self]
        have hm1 : ¬ ∃ r, '$' :: (w ++ mixNix f ps tail) = ('$' :: v) ++ r := by
          rintro ⟨r, hr⟩
          simp only [List.cons_append, List.cons.injEq, true_and] at hr
          rcases List.append_eq_append_iff.1 hr with ⟨a, h1, h2⟩ | ⟨a, h1, h2⟩
          · -- `v` is longer
            cases a with
            | nil => exact hwv (by simpa using h1.symm)
            | cons c cs =>
              have h3 := hs c (by rw [h2]; rfl)
              have h4 := hv.all c (by rw [h1]; simp)
              rw [h3] at h4; cases h4
          · exact hwv (hpre _ (List.mem_cons_self ..) ⟨a, h1⟩)
        rw [nixVar, List.cons_append, replaceGo_miss _ _ _ _ hm1,
          replaceGo_text _ _ _ _ _ hw.not_dollar, ih']
        simp [nixVar]

theorem findNix_skip (a s : Str) : findNix a.length (a ++ s) = findNix 0 s := by
  induction a with
  | nil => rfl
  | cons c cs ih => exact ih

theorem findNix_text (t s : Str) (h : '$' ∉ t) : findNix 0 (t ++ s) = findNix 0 s := by
  induction t with
  | nil => rfl
  | cons c cs ih =>
    rw [List.mem_cons, not_or] at h
    rw [List.cons_append, findNix, if_neg (fun hc => h.1 hc.symm), ih h.2]

theorem findNix_text_nil (t : Str) (h : '$' ∉ t) : findNix 0 t = [] := by
  have := findNix_text t [] h
  rw [List.append_nil] at this
  rw [this]; rfl

theorem nixText_mix (ps : List (Str × Str)) (tail : Str) : nixText ps tail = mixNix (fun _ => false) ps tail := by
  simp [nixText, mixNix, nixVar]

theorem findNix_nixText (ps : List (Str × Str)) (tail : Str)
    (hvars : ∀ p ∈ ps, VarName p.2) (ht : ∀ p ∈ ps, '$' ∉ p.1) (htail : '$' ∉ tail)
    (hstop : ∀ p ∈ ps.tail, Stops p.1) (hstopt : Stops tail) :
    findNix 0 (nixText ps tail) = ps.map Prod.snd := by
  induction ps with
  | nil => simpa [nixText] using findNix_text_nil tail htail
  | cons p ps ih =>
    obtain ⟨t, v⟩ := p
    have hv : VarName v := hvars _ (List.mem_cons_self ..)
    have e : nixText ((t, v) :: ps) tail = t ++ ('$' :: (v ++ nixText ps tail)) := by simp [nixText]
    rw [e, findNix_text _ _ (ht _ (List.mem_cons_self ..)), findNix, if_pos rfl]
    have hs : Stops (nixText ps tail) := by
      rw [nixText_mix]; exact mixNix_stops _ ps tail (fun p hp => hstop p hp) hstopt
    have htw : (v ++ nixText ps tail).takeWhile isVarChar = v := takeWhile_var hv hs
    simp only [htw]
    rw [findNix_skip, ih (fun p hp => hvars p (List.mem_cons_of_mem _ hp))
      (fun p hp => ht p (List.mem_cons_of_mem _ hp)) (fun p hp => hstop p (List.mem_of_mem_tail hp))]
    rfl

end Nxt.FilePaths
