import Verif.Model.Tokens
import Verif.Spec.Tokens
import Verif.Lemmas.Py
/-!
# Lemmas for the token scanner
-/
namespace Nxt.Tokens
open Py Spec

theorem opens_cons (c : Char) (cs : Str) :
    opens (c :: cs) = opener c cs.head? + opens cs := rfl

theorem opener_zero {c : Char} {n : Option Char} (h : ¬ (c = '$' ∧ n = some '{')) : opener c n = 0 := by
  simp [opener, h]

@[simp] theorem opener_none (c : Char) : opener c none = 0 := by simp [opener]

@[simp] theorem opener_eq : opener '$' (some '{') = 1 := by simp [opener]

@[simp] theorem opener_brace (n : Option Char) : opener '{' n = 0 := by simp [opener]
@[simp] theorem opener_close (n : Option Char) : opener '}' n = 0 := by simp [opener]

theorem closes_nil : closes [] = 0 := rfl
theorem opens_nil : opens [] = 0 := rfl

theorem closes_cons (c : Char) (cs : Str) :
    closes (c :: cs) = (if c = '}' then 1 else 0) + closes cs := by
  simp only [closes, List.count_cons, beq_iff_eq]
  split <;> omega

theorem closes_append (a b : Str) : closes (a ++ b) = closes a + closes b := by
  simp [closes]

/-- No opener straddles the cut. -/
def NoStraddle (s t : Str) : Prop := ¬ (s.getLast? = some '$' ∧ t.head? = some '{')

theorem noStraddle_tail {c : Char} {s t : Str} (h : NoStraddle (c :: s) t) (hs : s ≠ []) :
    NoStraddle s t := by
  unfold NoStraddle at *
  cases s with
  | nil => exact absurd rfl hs
  | cons d ds => simpa [List.getLast?_cons_cons] using h

theorem opens_append {s t : Str} (h : NoStraddle s t) : opens (s ++ t) = opens s + opens t := by
  induction s with
  | nil => simp [opens]
  | cons c cs ih =>
    cases cs with
    | nil =>
      simp only [List.cons_append, List.nil_append, opens_cons]
      have : ¬ (c = '$' ∧ t.head? = some '{') := by
        rintro ⟨rfl, ht⟩; exact h ⟨rfl, ht⟩
      simp [opener_zero this, opener_none, opens]
    | cons d ds =>
      have := ih (noStraddle_tail h (by simp))
      rw [List.cons_append, opens_cons, opens_cons, this]
      simp only [List.cons_append, List.head?_cons]
      omega

/-- In any cut the openers of the parts are at most those of the whole. -/
theorem opens_append_ge (s t : Str) : opens s + opens t ≤ opens (s ++ t) := by
  induction s with
  | nil => simp [opens]
  | cons c cs ih =>
    rw [List.cons_append, opens_cons, opens_cons]
    cases cs with
    | nil => simp [opens, opener_none]
    | cons d ds => simp only [List.cons_append, List.head?_cons] at ih ⊢; omega

theorem opens_eq_zero_iff (s : Str) : opens s = 0 ↔ ∀ a b, s ≠ a ++ PREFIX ++ b := by
  induction s with
  | nil => simp [opens, PREFIX]
  | cons c cs ih =>
    rw [opens_cons]
    constructor
    · intro h a b hab
      cases a with
      | nil =>
        simp [PREFIX] at hab
        obtain ⟨rfl, rfl⟩ := hab
        simp [opener_eq] at h
      | cons x xs =>
        simp only [List.cons_append, List.cons.injEq] at hab
        exact (ih.1 (by omega)) xs b hab.2
    · intro h
      have h1 : opens cs = 0 := ih.2 (fun a b hab => h (c :: a) b (by simp [hab]))
      have h2 : ¬ (c = '$' ∧ cs.head? = some '{') := by
        rintro ⟨rfl, hh⟩
        cases cs with
        | nil => simp at hh
        | cons d ds =>
          simp at hh; subst hh
          exact h [] ds (by simp [PREFIX])
      simp [h1, opener_zero h2]

/-! ### One scanner step -/

theorem scanStep_gap {st : Scan} {c : Char} {n : Option Char} (hs : st.starts = 0) (he : st.ends = 0)
    (hc : ¬ (c = '$' ∧ n = some '{')) : scanStep st c n = { st with i := st.i + 1 } := by
  simp [scanStep, hc, hs]

theorem scanStep_in {st : Scan} {c : Char} {n : Option Char} (hs : st.ends < st.starts)
    (hlt : st.ends + (if c = '}' then 1 else 0) < st.starts + opener c n) :
    scanStep st c n = { st with
      i := st.i + 1
      starts := st.starts + opener c n
      ends := st.ends + (if c = '}' then 1 else 0) } := by
  have h0 : st.starts ≠ 0 := by omega
  unfold scanStep
  by_cases h1 : c = '$' ∧ n = some '{'
  · have hc : c ≠ '}' := by rintro rfl; exact absurd h1.1 (by decide)
    have : st.starts + 1 ≠ st.ends := by omega
    simp [h1, h0, this, opener_eq]
  · by_cases h2 : c = '}'
    · have : st.starts ≠ st.ends + 1 := by simp [h1, h2] at hlt; omega
      simp [h1, h2, h0, this]
    · have : st.starts ≠ st.ends := by omega
      simp [opener_zero h1, h1, h2, this]

/-! ### Scanning pieces -/

theorem scan_gap {g t : Str} {st : Scan} (hs : st.starts = 0) (he : st.ends = 0) (hg : opens g = 0)
    (hn : NoStraddle g t) : scan (g ++ t) st = scan t { st with i := st.i + g.length } := by
  induction g generalizing st with
  | nil => simp
  | cons c cs ih =>
    rw [opens_cons] at hg
    have hc : ¬ (c = '$' ∧ (cs ++ t).head? = some '{') := by
      cases cs with
      | nil => rintro ⟨rfl, h⟩; exact hn ⟨rfl, by simpa using h⟩
      | cons d ds =>
        rintro ⟨rfl, h⟩
        simp only [List.cons_append, List.head?_cons] at h hg
        simp [h, opener_eq] at hg
    rw [List.cons_append, scan, scanStep_gap hs he hc]
    by_cases hcs : cs = []
    · subst hcs; simp
    · rw [ih (by exact hs) (by exact he) (by omega) (noStraddle_tail hn hcs)]
      simp [Nat.add_assoc, Nat.add_comm 1]

theorem scan_in {s t : Str} {st : Scan} (hlt : st.ends < st.starts) (hn : NoStraddle s t)
    (hp : ∀ p r, s = p ++ r → p ≠ [] → st.ends + closes p < st.starts + opens p) :
    scan (s ++ t) st = scan t { st with
      i := st.i + s.length, starts := st.starts + opens s, ends := st.ends + closes s } := by
  induction s generalizing st with
  | nil => simp [opens, closes]
  | cons c cs ih =>
    have hhead : cs ≠ [] → (cs ++ t).head? = cs.head? := by
      intro h; cases cs with
      | nil => exact absurd rfl h
      | cons d ds => simp
    have hlook : opener c (cs ++ t).head?
        = opener c cs.head? := by
      by_cases hcs : cs = []
      · subst hcs
        have : ¬ (c = '$' ∧ t.head? = some '{') := by
          rintro ⟨rfl, h⟩; exact hn ⟨rfl, h⟩
        simp [opener_zero this, opener_none]
      · rw [hhead hcs]
    have h1 : st.ends + (if c = '}' then 1 else 0)
        < st.starts + opener c (cs ++ t).head? := by
      have h2 := hp [c] cs (by simp) (by simp)
      rw [closes_cons, opens_cons, closes_nil, opens_nil] at h2
      simp only [List.head?_nil, opener_none, Nat.add_zero] at h2
      omega
    rw [List.cons_append, scan, scanStep_in hlt h1, hlook]
    rw [hlook] at h1
    by_cases hcs : cs = []
    · subst hcs
      simp [opens_cons, closes_cons, opens_nil, closes_nil]
    · rw [ih h1 (noStraddle_tail hn hcs)]
      · simp only [opens_cons, closes_cons, List.length_cons, Nat.add_assoc, Nat.add_comm 1]
      · intro p r hpr hpne
        have h2 := hp (c :: p) r (by simp [hpr]) (by simp)
        have hh : p.head? = cs.head? := by
          cases p with
          | nil => exact absurd rfl hpne
          | cons x xs => simp [hpr]
        rw [closes_cons, opens_cons, hh] at h2
        simp only
        omega

/-- The two first characters of a token put the scanner inside it. -/
theorem scanStep_open {st : Scan} (hs : st.starts = 0) (he : st.ends = 0) :
    scanStep st '$' (some '{') =
      { st with i := st.i + 1, starts := 1, ends := 0, outer := st.i } := by
  simp [scanStep, hs, he]

theorem scan_token {t rest : Str} {st : Scan} (hs : st.starts = 0) (he : st.ends = 0)
    (ht : IsToken t) : scan (t ++ rest) st =
      scan rest { i := st.i + t.length, bounds := st.bounds ++ [(st.i, st.i + t.length)],
                  starts := 0, ends := 0, outer := 0 } := by
  obtain ⟨⟨r, rfl⟩, hbal, hpre⟩ := ht
  -- split off the last character, which must be the closer
  have hr : r ≠ [] := by
    rintro rfl; simp [closes, opens] at hbal
  obtain ⟨m, l, rfl⟩ : ∃ m l, r = m ++ [l] := ⟨r.dropLast, r.getLast hr, (List.dropLast_concat_getLast hr).symm⟩
  have hpm : closes ('$' :: '{' :: m) < opens ('$' :: '{' :: m) :=
    hpre ('$' :: '{' :: m) [l] (by simp) (by simp) (by simp)
  have hge := opens_append_ge ('$' :: '{' :: m) [l]
  have hl : l = '}' := by
    by_cases hl : l = '}'
    · exact hl
    · exfalso
      have h1 : closes ('$' :: '{' :: (m ++ [l])) = closes ('$' :: '{' :: m) := by
        have := closes_append ('$' :: '{' :: m) [l]
        simpa [closes_cons, hl, closes] using this
      have h2 : opens ('$' :: '{' :: (m ++ [l])) = opens ('$' :: '{' :: m ++ [l]) := by simp
      omega
  subst hl
  have hns : ∀ x : Str, NoStraddle x ('}' :: rest) := by
    intro x h; exact absurd h.2 (by simp)
  have hns1 : ∀ x : Str, NoStraddle x ['}'] := by
    intro x h; exact absurd h.2 (by simp)
  have hop : opens ('$' :: '{' :: (m ++ ['}'])) = opens ('$' :: '{' :: m) := by
    have := opens_append (hns1 ('$' :: '{' :: m))
    simpa [opens_cons, opens_nil, ← Nat.add_assoc] using this
  have hcl : closes ('$' :: '{' :: (m ++ ['}'])) = closes ('$' :: '{' :: m) + 1 := by
    have := closes_append ('$' :: '{' :: m) ['}']
    simpa [closes_cons, closes] using this
  have hop2 : opens ('$' :: '{' :: m) = 1 + opens ('{' :: m) := by simp [opens_cons]
  have hcl2 : closes ('$' :: '{' :: m) = closes ('{' :: m) := by simp [closes_cons]
  have e1 : ('$' :: '{' :: (m ++ ['}'])) ++ rest = '$' :: (('{' :: m) ++ ('}' :: rest)) := by simp
  rw [e1, scan]
  have hhd : (('{' :: m) ++ ('}' :: rest)).head? = some '{' := by simp
  rw [hhd, scanStep_open hs he, scan_in (by simp) (hns _)]
  · -- last character
    rw [scan]
    have hA : 1 + opens ('{' :: m) = closes ('{' :: m) + 1 := by omega
    have hstep : scanStep
        { i := st.i + 1 + ('{' :: m).length, bounds := st.bounds, starts := 1 + opens ('{' :: m),
          ends := 0 + closes ('{' :: m), outer := st.i } '}' rest.head?
        = { i := st.i + ('$' :: '{' :: (m ++ ['}'])).length,
            bounds := st.bounds ++ [(st.i, st.i + ('$' :: '{' :: (m ++ ['}'])).length)],
            starts := 0, ends := 0, outer := 0 } := by
      have hc : ¬ ('}' = '$' ∧ rest.head? = some '{') := by simp
      have h0 : 1 + opens ('{' :: m) ≠ 0 := by omega
      unfold scanStep
      simp only [hc, if_false, h0, ne_eq, not_false_eq_true, and_self, if_true]
      simp only [Nat.zero_add, hA, Nat.lt_add_left_iff_pos, Nat.succ_pos, true_and, Nat.zero_lt_succ,
        and_self, if_true]
      simp only [List.length_cons, List.length_append, List.length_nil, Scan.mk.injEq, and_true,
        true_and]
      constructor
      · omega
      · congr 3; omega
    exact congrArg (scan rest) hstep
  · intro p q hpq hne
    have := hpre ('$' :: p) (q ++ ['}']) (by
      have : '{' :: (m ++ ['}']) = p ++ (q ++ ['}']) := by
        rw [← List.append_assoc, ← hpq]; simp
      simp [this]) (by simp)
      (by cases p with
          | nil => exact absurd rfl hne
          | cons x xs => simp)
    have hx : p.head? = some '{' := by
      cases p with
      | nil => exact absurd rfl hne
      | cons x xs => simp at hpq; simp [← hpq.1]
    rw [closes_cons, opens_cons, hx] at this
    simp at this ⊢
    omega

theorem scan_open_end {u : Str} {st : Scan} (hs : st.starts = 0) (he : st.ends = 0)
    (hu : StaysOpen u) : (scan u st).ends < (scan u st).starts := by
  obtain ⟨⟨r, rfl⟩, hpre⟩ := hu
  rw [scan]
  simp only [List.head?_cons]
  rw [scanStep_open hs he]
  have hns : NoStraddle ('{' :: r) [] := by intro h; simp at h
  have := scan_in (s := '{' :: r) (t := [])
    (st := { st with i := st.i + 1, starts := 1, ends := 0, outer := st.i }) (by simp) hns (by
      intro p q hpq hne
      have := hpre ('$' :: p) q (by simp [hpq]) (by
        cases p with
        | nil => exact absurd rfl hne
        | cons x xs => simp)
      have hx : p.head? = some '{' := by
        cases p with
        | nil => exact absurd rfl hne
        | cons x xs => simp at hpq; simp [← hpq.1]
      rw [closes_cons, opens_cons, hx] at this
      simp at this ⊢
      omega)
  rw [List.append_nil] at this
  rw [this]
  simp only [scan]
  have h2 := hpre ('$' :: '{' :: r) [] (by simp) (by simp)
  rw [closes_cons, opens_cons] at h2
  simp at h2 ⊢
  omega

theorem noStraddle_token {g t : Str} (h : ∃ r, t = '$' :: '{' :: r) (rest : Str) :
    NoStraddle g (t ++ rest) := by
  obtain ⟨r, rfl⟩ := h
  intro h; simp at h

theorem noStraddle_nil (g : Str) : NoStraddle g [] := by intro h; simp at h

/-- The scanner on a parsed text, started with an already scanned part `pre`. -/
theorem scan_parse {s : Str} {ts : List Str} {ok : Bool} (h : Parse s ts ok) (pre : Str) (st : Scan)
    (hi : st.i = pre.length) (hs : st.starts = 0) (he : st.ends = 0) :
    let st' := scan s st
    (ok = true → st'.starts = st'.ends ∧
      st'.bounds.map (slice (pre ++ s)) = st.bounds.map (slice (pre ++ s)) ++ ts) ∧
    (ok = false → st'.ends < st'.starts) := by
  induction h generalizing pre st with
  | done hg =>
    rename_i g
    have := scan_gap (t := []) hs he hg (noStraddle_nil g)
    rw [List.append_nil] at this
    simp only [this, scan]
    simp [hs, he]
  | unclosed hg hu =>
    rename_i g u
    have hn : NoStraddle g u := by simpa using noStraddle_token hu.1 []
    simp only [scan_gap hs he hg hn]
    refine ⟨by simp, fun _ => scan_open_end hs he hu⟩
  | tok hg ht hp ih =>
    rename_i g t rest ts ok
    have hn : NoStraddle g (t ++ rest) := noStraddle_token ht.1 rest
    simp only [List.append_assoc]
    rw [scan_gap hs he hg hn, scan_token (by exact hs) (by exact he) ht]
    have := ih (pre ++ g ++ t)
      { i := st.i + g.length + t.length,
        bounds := st.bounds ++ [(st.i + g.length, st.i + g.length + t.length)],
        starts := 0, ends := 0, outer := 0 } (by simp [hi, Nat.add_assoc]) rfl rfl
    refine ⟨fun hok => ?_, fun hok => this.2 hok⟩
    obtain ⟨h1, h2⟩ := this.1 hok
    refine ⟨h1, ?_⟩
    have e : pre ++ (g ++ (t ++ rest)) = pre ++ g ++ t ++ rest := by simp
    rw [e, h2]
    simp only [List.map_append, List.append_assoc, List.map_cons, List.map_nil, List.cons_append,
      List.nil_append, List.append_cancel_left_eq, List.cons.injEq, and_true]
    simp [slice, hi]

/-- Every text parses. -/
theorem exists_parse (s : Str) : ∃ ts ok, Parse s ts ok := by
  induction hn : s.length using Nat.strongRecOn generalizing s with
  | _ n ih =>
    by_cases h0 : opens s = 0
    · exact ⟨[], true, .done h0⟩
    · -- first opener
      cases hp : partition? PREFIX s with
      | none => exact absurd ((opens_eq_zero_iff s).2 (partition?_none (by simp [PREFIX]) hp)) h0
      | some gr =>
        obtain ⟨g, r⟩ := gr
        obtain ⟨hsg, hmin⟩ := partition?_some (by simp [PREFIX]) hp
        have hg : opens g = 0 := by
          rw [opens_eq_zero_iff]
          intro a b hab
          have := hmin a (b ++ PREFIX ++ r) (by rw [hsg, hab]; simp)
          rw [hab] at this
          simp [PREFIX] at this
          omega
        have hsu : s = g ++ ('$' :: '{' :: r) := by rw [hsg]; simp [PREFIX]
        by_cases hopen : StaysOpen ('$' :: '{' :: r)
        · exact ⟨[], false, hsu ▸ .unclosed hg hopen⟩
        · -- shortest balanced prefix
          have hex : ∃ k, 2 ≤ k ∧ k ≤ r.length + 2 ∧
              opens (('$' :: '{' :: r).take k) ≤ closes (('$' :: '{' :: r).take k) := by
            simp only [StaysOpen, not_and, Classical.not_forall] at hopen
            obtain ⟨p, q, hpq, hp2, hcl⟩ := hopen ⟨r, rfl⟩
            refine ⟨p.length, hp2, ?_, ?_⟩
            · have := congrArg List.length hpq; simp at this; omega
            · rw [hpq]; simp; omega
          obtain ⟨k, ⟨hk2, hkl, hkc⟩, hkmin⟩ : ∃ k, (2 ≤ k ∧ k ≤ r.length + 2 ∧
              opens (('$' :: '{' :: r).take k) ≤ closes (('$' :: '{' :: r).take k)) ∧
              ∀ j, j < k → ¬ (2 ≤ j ∧ j ≤ r.length + 2 ∧
                opens (('$' :: '{' :: r).take j) ≤ closes (('$' :: '{' :: r).take j)) := by
            obtain ⟨k0, hk0⟩ := hex
            induction k0 using Nat.strongRecOn with
            | _ k0 ihk =>
              by_cases hc : ∃ j, j < k0 ∧ (2 ≤ j ∧ j ≤ r.length + 2 ∧
                opens (('$' :: '{' :: r).take j) ≤ closes (('$' :: '{' :: r).take j))
              · obtain ⟨j, hj, hj2⟩ := hc; exact ihk j hj hj2
              · exact ⟨k0, hk0, fun j hj hj2 => hc ⟨j, hj, hj2⟩⟩
          have hk3 : 3 ≤ k := by
            rcases Nat.lt_or_ge k 3 with h | h
            · have : k = 2 := by omega
              subst this
              simp [opens, closes] at hkc
            · exact h
          let u := '$' :: '{' :: r
          have hu : u = '$' :: '{' :: r := rfl
          have htake : u.take k = u.take (k-1) ++ [u[k-1]'(by simp [hu]; omega)] := by
            have := List.take_concat_get (l := u) (i := k-1) (by simp [hu]; omega)
            rw [List.concat_eq_append] at this
            rw [this]; congr 1; omega
          have hprev := hkmin (k-1) (by omega)
          have hprev' : closes (u.take (k-1)) < opens (u.take (k-1)) := by
            rcases Nat.lt_or_ge (closes (u.take (k-1))) (opens (u.take (k-1))) with h | h
            · exact h
            · exact absurd ⟨by omega, by omega, h⟩ hprev
          have hge := opens_append_ge (u.take (k-1)) [u[k-1]'(by simp [hu]; omega)]
          rw [← htake] at hge
          have hcl : closes (u.take k) ≤ closes (u.take (k-1)) + 1 := by
            rw [htake, closes_append, closes_cons]
            simp only [closes, List.count_nil]; split <;> omega
          have htok : IsToken (u.take k) := by
            refine ⟨⟨r.take (k-2), ?_⟩, ?_, ?_⟩
            · obtain ⟨k', rfl⟩ : ∃ k', k = k' + 2 := ⟨k - 2, by omega⟩
              simp [hu]
            · have : opens (u.take k) ≤ closes (u.take k) := hkc
              omega
            · intro p q hpq hq hp2
              have hpl : p.length < k := by
                have := congrArg List.length hpq
                have h3 := List.length_pos_iff.2 hq
                simp [hu] at this; omega
              have := hkmin p.length hpl
              have hpt : u.take p.length = p := by
                have h4 : u.take p.length = (u.take k).take p.length := by
                  rw [List.take_take]; congr 1; omega
                rw [h4, hpq]; simp
              rw [← hu, hpt] at this
              rcases Nat.lt_or_ge (closes p) (opens p) with h | h
              · exact h
              · exact absurd ⟨by omega, by omega, h⟩ this
          obtain ⟨ts, ok, hrest⟩ := ih (u.drop k).length (by
            rw [← hn, hsu]; simp [hu]; omega) (u.drop k) rfl
          refine ⟨u.take k :: ts, ok, ?_⟩
          have := Parse.tok hg htok hrest
          rw [List.append_assoc, List.take_append_drop] at this
          rw [hsu]; exact this


end Nxt.Tokens
