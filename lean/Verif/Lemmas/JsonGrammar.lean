import Verif.Lemmas.JsonText
import Verif.Spec.JsonGrammar
/-!
# The reader against the grammar
-/
namespace Nxt.JsonText
open Spec Names

/-! ### Digits and characters -/

theorem hexVal_of : ∀ k, k < 16 → ∀ c, HexOf c k → hexVal c = some k := by
  intro k hk c h
  have key : ∀ k, k < 16 → ∀ x, ("0123456789abcdef".toList[k]? = some x ∨ "0123456789ABCDEF".toList[k]? = some x) →
      hexVal x = some k := by
    intro k hk x hx
    have h1 : ∀ k, k < 16 → ("0123456789abcdef".toList[k]?).map hexVal = some (some k) := by decide
    have h2 : ∀ k, k < 16 → ("0123456789ABCDEF".toList[k]?).map hexVal = some (some k) := by decide
    rcases hx with hx | hx
    · have := h1 k hk; rw [hx] at this; exact Option.some.inj this
    · have := h2 k hk; rw [hx] at this; exact Option.some.inj this
  exact key k hk c h

theorem hexOf_lt {c : Char} {k : Nat} (h : HexOf c k) : k < 16 := by
  rcases h with h | h
  · exact (List.getElem?_eq_some_iff.mp h).1
  · exact (List.getElem?_eq_some_iff.mp h).1

theorem hexVal_some {c : Char} {k : Nat} (h : HexOf c k) : hexVal c = some k := hexVal_of k (hexOf_lt h) c h

theorem of_hexVal {c : Char} {k : Nat} (h : hexVal c = some k) : HexOf c k := by
  unfold hexVal at h
  split at h
  · obtain rfl := Option.some.inj h
    obtain ⟨j, hj, hc⟩ : ∃ j, j < 10 ∧ c.toNat = 48 + j := ⟨c.toNat - 48, by omega, by omega⟩
    have e : Char.ofNat (48 + j) = c := ofNat_toNat' hc.symm
    have t : ∀ j, j < 10 → "0123456789abcdef".toList[j]? = some (Char.ofNat (48 + j)) := by decide
    have := t j hj
    rw [e] at this
    exact .inl (by rw [hc, Nat.add_sub_cancel_left]; exact this)
  split at h
  · obtain rfl := Option.some.inj h
    obtain ⟨j, hj, hc⟩ : ∃ j, j < 6 ∧ c.toNat = 97 + j := ⟨c.toNat - 97, by omega, by omega⟩
    have e : Char.ofNat (97 + j) = c := ofNat_toNat' hc.symm
    have t : ∀ j, j < 6 → "0123456789abcdef".toList[10 + j]? = some (Char.ofNat (97 + j)) := by decide
    have := t j hj
    rw [e] at this
    exact .inl (by rw [show c.toNat - 87 = 10 + j by omega]; exact this)
  split at h
  · obtain rfl := Option.some.inj h
    obtain ⟨j, hj, hc⟩ : ∃ j, j < 6 ∧ c.toNat = 65 + j := ⟨c.toNat - 65, by omega, by omega⟩
    have e : Char.ofNat (65 + j) = c := ofNat_toNat' hc.symm
    have t : ∀ j, j < 6 → "0123456789ABCDEF".toList[10 + j]? = some (Char.ofNat (65 + j)) := by decide
    have := t j hj
    rw [e] at this
    exact .inr (by rw [show c.toNat - 55 = 10 + j by omega]; exact this)
  · cases h

theorem readHex_of {n : Nat} {h : Str} (hh : FourHex n h) (r : Str) : readHex (h ++ r) = some (n, r) := by
  cases hh with
  | mk a b c d i j k l ha hb hc hd =>
    simp only [readHex, List.cons_append, List.nil_append, hexVal_some ha, hexVal_some hb, hexVal_some hc, hexVal_some hd]
    simp only [Option.some.injEq, Prod.mk.injEq, and_true]
    omega

theorem of_readHex {n : Nat} {s r : Str} (h : readHex s = some (n, r)) : ∃ x, s = x ++ r ∧ FourHex n x := by
  match s, h with
  | a :: b :: c :: d :: t, h =>
    simp only [readHex] at h
    split at h
    · rename_i i j k l h1 h2 h3 h4
      simp only [Option.some.injEq, Prod.mk.injEq] at h
      obtain ⟨rfl, rfl⟩ := h
      have := FourHex.mk a b c d i j k l (of_hexVal h1) (of_hexVal h2) (of_hexVal h3) (of_hexVal h4)
      exact ⟨[a, b, c, d], rfl, by rw [show ((i * 16 + j) * 16 + k) * 16 + l = 4096 * i + 256 * j + 16 * k + l by omega]; exact this⟩
    · cases h
  | [], h => cases h
  | [_], h => cases h
  | [_, _], h => cases h
  | [_, _, _], h => cases h

theorem plainEscape_of {e c : Char} (h : (e, c) ∈ shortEscapes) : plainEscape e = some c ∧ e ≠ 'u' := by
  simp only [shortEscapes, List.mem_cons, Prod.mk.injEq, List.not_mem_nil, or_false] at h
  rcases h with ⟨rfl, rfl⟩ | ⟨rfl, rfl⟩ | ⟨rfl, rfl⟩ | ⟨rfl, rfl⟩ | ⟨rfl, rfl⟩ | ⟨rfl, rfl⟩ | ⟨rfl, rfl⟩ | ⟨rfl, rfl⟩ <;>
    exact ⟨rfl, by decide⟩

theorem of_plainEscape {e c : Char} (h : plainEscape e = some c) : (e, c) ∈ shortEscapes := by
  unfold plainEscape at h
  iterate 8
    split at h
    · rename_i he
      obtain rfl := he
      obtain rfl := Option.some.inj h
      simp [shortEscapes]
  cases h

theorem readChar_of {c : Char} {x : Str} (h : CharText c x) (r : Str) : readChar (x ++ r) = some (c, r) := by
  cases h with
  | plain c h1 h2 h3 =>
    simp only [List.cons_append, List.nil_append, readChar]
    rw [if_neg h3, if_neg (by omega)]
  | short e c h =>
    simp only [List.cons_append, List.nil_append, readChar]
    rw [if_pos trivial, if_neg (plainEscape_of h).2, (plainEscape_of h).1]
    rfl
  | unit n h hh hn =>
    simp only [List.cons_append]
    exact (readChar_u _).trans (readUnicode_one (readHex_of hh r) (by omega) (by omega))
  | pair n m h h' hh hh' h1 h2 h3 h4 =>
    simp only [List.cons_append, List.append_assoc]
    exact (readChar_u _).trans (readUnicode_two (readHex_of hh _) (readHex_of hh' r) ⟨h1, h2⟩ ⟨h3, h4⟩)

theorem charText_head {c : Char} {x : Str} (h : CharText c x) : ∃ y ys, x = y :: ys ∧ y ≠ '"' := by
  cases h with
  | plain _ _ h _ => exact ⟨_, _, rfl, h⟩
  | short => exact ⟨_, _, rfl, by decide⟩
  | unit => exact ⟨_, _, rfl, by decide⟩
  | pair => exact ⟨_, _, rfl, by decide⟩

theorem of_readUnicode {c : Char} {s r : Str} (h : readUnicode s = some (c, r)) :
    ∃ x, '\\' :: 'u' :: s = x ++ r ∧ CharText c x := by
  unfold readUnicode at h
  cases h1 : readHex s with
  | none => rw [h1] at h; cases h
  | some p =>
    obtain ⟨n, t⟩ := p
    obtain ⟨x, rfl, hx⟩ := of_readHex h1
    rw [h1] at h
    simp only at h
    split at h
    · rename_i hn
      split at h
      · rename_i t'
        cases h2 : readHex t' with
        | none => rw [h2] at h; cases h
        | some p =>
          obtain ⟨m, u⟩ := p
          obtain ⟨y, rfl, hy⟩ := of_readHex h2
          rw [h2] at h
          simp only at h
          split at h
          · rename_i hm
            simp only [Option.some.injEq, Prod.mk.injEq] at h
            obtain ⟨rfl, rfl⟩ := h
            exact ⟨'\\' :: 'u' :: x ++ '\\' :: 'u' :: y, by simp, .pair n m x y hx hy hn.1 hn.2 hm.1 hm.2⟩
          · cases h
      · cases h
    · rename_i hn
      split at h
      · cases h
      · rename_i hm
        simp only [Option.some.injEq, Prod.mk.injEq] at h
        obtain ⟨rfl, rfl⟩ := h
        exact ⟨'\\' :: 'u' :: x, by simp, .unit n x hx (by omega)⟩

theorem of_readChar {c y : Char} {s r : Str} (h : readChar (y :: s) = some (c, r)) (hy : y ≠ '"') :
    ∃ x, y :: s = x ++ r ∧ CharText c x := by
  simp only [readChar] at h
  split at h
  · rename_i hb
    subst hb
    cases s with
    | nil => cases h
    | cons e s =>
      simp only at h
      split at h
      · rename_i he
        subst he
        exact of_readUnicode h
      · cases hp : plainEscape e with
        | none => rw [hp] at h; cases h
        | some z =>
          rw [hp] at h
          simp only [Option.map_some, Option.some.injEq, Prod.mk.injEq] at h
          obtain ⟨rfl, rfl⟩ := h
          exact ⟨['\\', e], rfl, .short e z (of_plainEscape hp)⟩
  · rename_i hb
    split at h
    · cases h
    · rename_i hl
      simp only [Option.some.injEq, Prod.mk.injEq] at h
      obtain ⟨rfl, rfl⟩ := h
      exact ⟨[y], rfl, .plain y (by omega) hy hb⟩

/-! ### Texts -/

theorem readStr_of {t x : Str} (h : StrText t x) : ∀ (n : Nat) (r : Str), x.length < n →
    readStr n (x ++ '"' :: r) = some (t, r) := by
  induction h with
  | nil =>
    intro n r hn
    obtain ⟨m, rfl⟩ : ∃ m, n = m + 1 := ⟨n - 1, by omega⟩
    rfl
  | cons c x t s hc _ ih =>
    intro n r hn
    obtain ⟨y, ys, rfl, hy⟩ := charText_head hc
    obtain ⟨m, rfl⟩ : ∃ m, n = m + 1 := ⟨n - 1, by omega⟩
    have e := readChar_of hc (s ++ '"' :: r)
    rw [List.append_assoc, List.cons_append]
    rw [List.cons_append] at e
    rw [readStr, if_neg hy, e]
    simp only
    rw [ih m r (by simp only [List.cons_append, List.length_cons, List.length_append] at hn; omega)]

theorem readStr_of' {t x : Str} (h : StrText t x) (r : Str) :
    readStr (x ++ '"' :: r).length (x ++ '"' :: r) = some (t, r) :=
  readStr_of h _ r (by simp)

theorem of_readStr : ∀ (n : Nat) {s t r : Str}, readStr n s = some (t, r) → ∃ x, s = x ++ '"' :: r ∧ StrText t x
  | 0, _, _, _, h => nomatch h
  | _ + 1, [], _, _, h => nomatch h
  | n + 1, c :: s, t, r, h => by
    rw [readStr] at h
    split at h
    · rename_i hc
      subst hc
      simp only [Option.some.injEq, Prod.mk.injEq] at h
      obtain ⟨rfl, rfl⟩ := h
      exact ⟨[], rfl, .nil⟩
    · rename_i hc
      cases h1 : readChar (c :: s) with
      | none => rw [h1] at h; cases h
      | some p =>
        obtain ⟨y, u⟩ := p
        obtain ⟨x, hx, hxc⟩ := of_readChar h1 hc
        rw [h1] at h
        simp only at h
        cases h2 : readStr n u with
        | none => rw [h2] at h; cases h
        | some p =>
          obtain ⟨t', u'⟩ := p
          rw [h2] at h
          simp only [Option.some.injEq, Prod.mk.injEq] at h
          obtain ⟨rfl, rfl⟩ := h
          obtain ⟨z, rfl, hz⟩ := of_readStr n h2
          exact ⟨x ++ z, by rw [hx]; simp, .cons y x t' z hxc hz⟩

/-! ### Numbers -/

theorem takeWhile_all (p : Char → Bool) : ∀ (s : Str), ∀ d ∈ s.takeWhile p, p d = true
  | [], _, h => nomatch h
  | c :: s, d, h => by
    rw [List.takeWhile_cons] at h
    split at h
    · rename_i hc
      rcases List.mem_cons.mp h with rfl | h
      · exact hc
      · exact takeWhile_all p s d h
    · cases h

theorem stops_match (k : Nat) (r : Str) : Stops r → (match r with
      | '.' :: _ => none
      | 'e' :: _ => none
      | 'E' :: _ => none
      | _ => some (k, r)) = some (k, r) := by
  intro hr
  split
  · exact absurd rfl (hr _ rfl).2.1
  · exact absurd rfl (hr _ rfl).2.2.1
  · exact absurd rfl (hr _ rfl).2.2.2
  · rfl

theorem isDigit_of {d : Char} (h : 48 ≤ d.toNat ∧ d.toNat ≤ 57) : isDigit d = true := by
  simp only [isDigit, Bool.and_eq_true, decide_eq_true_eq]; exact h

theorem of_isDigit {d : Char} (h : isDigit d = true) : 48 ≤ d.toNat ∧ d.toNat ≤ 57 := by
  simpa only [isDigit, Bool.and_eq_true, decide_eq_true_eq] using h

theorem readNat_of {n : Nat} {s r : Str} (h : NatText n s) (hr : Stops r) : readNat (s ++ r) = some (n, r) := by
  cases h with
  | zero => exact stops_match 0 r hr
  | more c ds hd hc =>
    have h1 : isDigit c = true := isDigit_of (hd c List.mem_cons_self)
    have h2 : ∀ d ∈ ds, isDigit d = true := fun d h => isDigit_of (hd d (List.mem_cons_of_mem _ h))
    obtain ⟨e1, e2⟩ := takeWhile_stops h2 hr
    simp only [readNat, List.cons_append, h1, Bool.not_true, Bool.false_eq_true, if_false, hc, e1, e2]
    exact stops_match _ r hr

theorem of_readNat {n : Nat} {s r : Str} (h : readNat s = some (n, r)) : ∃ x, s = x ++ r ∧ NatText n x := by
  have tail : ∀ (t : Str) (k : Nat), (match t with
      | '.' :: _ => none
      | 'e' :: _ => none
      | 'E' :: _ => none
      | _ => some (k, t)) = some (n, r) → k = n ∧ t = r := by
    intro t k h
    split at h
    · cases h
    · cases h
    · cases h
    · simpa only [Option.some.injEq, Prod.mk.injEq] using h
  match s, h with
  | [], h => cases h
  | c :: t, h =>
    simp only [readNat] at h
    split at h
    · cases h
    · rename_i hd
      by_cases hc : c = '0'
      · simp only [hc, if_true] at h
        obtain ⟨rfl, rfl⟩ := tail _ _ h
        exact ⟨['0'], by rw [hc]; rfl, .zero⟩
      · simp only [hc, if_false] at h
        obtain ⟨rfl, rfl⟩ := tail _ _ h
        refine ⟨c :: t.takeWhile isDigit, by rw [List.cons_append, List.takeWhile_append_dropWhile], .more c _ ?_ hc⟩
        intro d hm
        rcases List.mem_cons.mp hm with rfl | hm
        · exact of_isDigit (by simpa using hd)
        · exact of_isDigit (takeWhile_all isDigit t d hm)

theorem natText_head {n : Nat} {s : Str} (h : NatText n s) : ∃ c cs, s = c :: cs ∧ isDigit c = true := by
  cases h with
  | zero => exact ⟨_, _, rfl, by decide⟩
  | more c ds hd _ => exact ⟨_, _, rfl, isDigit_of (hd c List.mem_cons_self)⟩

theorem readNum_of {z : Int} {s r : Str} (h : NumText z s) (hr : Stops r) : readNum (s ++ r) = some (z, r) := by
  cases h with
  | pos n s h =>
    have e := readNat_of h hr
    obtain ⟨c, cs, rfl, hc⟩ := natText_head h
    unfold readNum
    split
    · rename_i heq
      rw [List.cons_append] at heq
      rw [(List.cons.inj heq).1] at hc
      exact absurd hc (by decide)
    · rw [e]; rfl
  | neg n s h =>
    rw [List.cons_append, readNum, readNat_of h hr]
    rfl

theorem of_readNum {z : Int} {s r : Str} (h : readNum s = some (z, r)) : ∃ x, s = x ++ r ∧ NumText z x := by
  unfold readNum at h
  split at h
  · rename_i t
    cases h1 : readNat t with
    | none => rw [h1] at h; cases h
    | some p =>
      obtain ⟨n, u⟩ := p
      rw [h1] at h
      simp only [Option.map_some, Option.some.injEq, Prod.mk.injEq] at h
      obtain ⟨rfl, rfl⟩ := h
      obtain ⟨x, rfl, hx⟩ := of_readNat h1
      exact ⟨'-' :: x, rfl, .neg n x hx⟩
  · cases h1 : readNat s with
    | none => rw [h1] at h; cases h
    | some p =>
      obtain ⟨n, u⟩ := p
      rw [h1] at h
      simp only [Option.map_some, Option.some.injEq, Prod.mk.injEq] at h
      obtain ⟨rfl, rfl⟩ := h
      obtain ⟨x, rfl, hx⟩ := of_readNat h1
      exact ⟨x, rfl, .pos n x hx⟩

theorem numText_head {z : Int} {s : Str} (h : NumText z s) : ∃ c cs, s = c :: cs ∧ (isDigit c = true ∨ c = '-') := by
  cases h with
  | pos n s h => obtain ⟨c, cs, e, hc⟩ := natText_head h; exact ⟨c, cs, e, .inl hc⟩
  | neg n s h => exact ⟨_, _, rfl, .inr rfl⟩

/-! ### Blanks -/

theorem isBlank_iff (c : Char) : isBlank c = true ↔ (c = ' ' ∨ c = '\t' ∨ c = '\n' ∨ c = '\r') := by
  simp only [isBlank, Bool.or_eq_true, decide_eq_true_eq, or_assoc]

theorem blanks_cons {c : Char} {b : Str} (h : Blanks (c :: b)) : isBlank c = true ∧ Blanks b :=
  ⟨(isBlank_iff c).mpr (h c List.mem_cons_self), fun d hd => h d (List.mem_cons_of_mem _ hd)⟩

theorem blanks_append {b c : Str} (hb : Blanks b) (hc : Blanks c) : Blanks (b ++ c) := by
  intro d hd
  rcases List.mem_append.mp hd with hd | hd
  · exact hb d hd
  · exact hc d hd

theorem blanks_nil : Blanks [] := fun _ h => nomatch h

theorem skip_blanks {c : Char} {s : Str} (hc : isBlank c = false) : ∀ (b : Str), Blanks b → skip (b ++ c :: s) = c :: s
  | [], _ => skip_none hc
  | d :: b, h => by
    rw [skip, List.cons_append, List.dropWhile_cons, if_pos (blanks_cons h).1]
    exact skip_blanks hc b (blanks_cons h).2

theorem skip_all : ∀ (b : Str), Blanks b → skip b = []
  | [], _ => rfl
  | d :: b, h => by
    rw [skip, List.dropWhile_cons, if_pos (blanks_cons h).1]
    exact skip_all b (blanks_cons h).2

theorem of_skip (s : Str) : ∃ b, Blanks b ∧ s = b ++ skip s :=
  ⟨s.takeWhile isBlank, fun c hc => (isBlank_iff c).mp (takeWhile_all _ _ c hc), (List.takeWhile_append_dropWhile).symm⟩

theorem stops_blank {c : Char} (h : isBlank c = true) : isDigit c = false ∧ c ≠ '.' ∧ c ≠ 'e' ∧ c ≠ 'E' := by
  rcases (isBlank_iff c).mp h with rfl | rfl | rfl | rfl <;> decide

theorem stops_blanks {b r : Str} (hb : Blanks b) (hr : Stops r) : Stops (b ++ r) := by
  cases b with
  | nil => exact hr
  | cons c b => exact stops_cons (stops_blank (blanks_cons hb).1)

theorem opens_num {c : Char} (h : isDigit c = true ∨ c = '-') : Opens c := by
  rcases h with h2 | rfl
  · refine ⟨?_, ?_, ?_⟩
    · cases hb : isBlank c with
      | false => rfl
      | true => rw [(stops_blank hb).1] at h2; cases h2
    · rintro rfl; exact absurd h2 (by decide)
    · rintro rfl; exact absurd h2 (by decide)
  · exact ⟨by decide, by decide, by decide⟩

theorem valText_head {v : Val} {s : Str} (h : ValText v s) : ∃ c cs, s = c :: cs ∧ Opens c := by
  cases h with
  | null => exact ⟨'n', _, rfl, by decide, by decide, by decide⟩
  | true => exact ⟨'t', _, rfl, by decide, by decide, by decide⟩
  | false => exact ⟨'f', _, rfl, by decide, by decide, by decide⟩
  | num z s h => obtain ⟨c, cs, e, hc⟩ := numText_head h; exact ⟨c, cs, e, opens_num hc⟩
  | str => exact ⟨'"', _, rfl, by decide, by decide, by decide⟩
  | noItems => exact ⟨'[', _, rfl, by decide, by decide, by decide⟩
  | items => exact ⟨'[', _, rfl, by decide, by decide, by decide⟩
  | noEntries => exact ⟨'{', _, rfl, by decide, by decide, by decide⟩
  | entries => exact ⟨'{', _, rfl, by decide, by decide, by decide⟩

/-! ### What the grammar allows is read -/

/-- The text is read as the value. -/
def ReadAs (v : Val) (s : Str) : Prop := ∀ n r, s.length ≤ n → Stops r → readVal n (s ++ r) = some (v, r)

theorem readItems_of : ∀ (l : List Piece), l ≠ [] → (∀ p ∈ l, Blanks p.before ∧ Blanks p.after) →
    (∀ p ∈ l, ValText p.val p.text) → (∀ p ∈ l, ReadAs p.val p.text) → ∀ n r, (commaed l).length + 1 ≤ n →
    ∃ c s, Opens c ∧ skip (commaed l ++ ']' :: r) = c :: s ∧ readItems n (c :: s) = some (l.map (·.val), r)
  | [], h, _, _, _, _, _, _ => absurd rfl h
  | [p], _, hb, ht, hr, n, r, hn => by
    obtain ⟨c, cs, e, ho⟩ := valText_head (ht p List.mem_cons_self)
    obtain ⟨m, rfl⟩ : ∃ m, n = m + 1 := ⟨n - 1, by omega⟩
    obtain ⟨h1, h2⟩ := hb p List.mem_cons_self
    have hl : p.text.length ≤ m := by simp only [commaed, List.length_append] at hn; omega
    have h3 := hr p List.mem_cons_self m (p.after ++ ']' :: r) hl (stops_blanks h2 (stops_cons (by decide)))
    have h4 : commaed [p] ++ ']' :: r = p.before ++ c :: (cs ++ (p.after ++ ']' :: r)) := by simp [commaed, e]
    refine ⟨c, cs ++ (p.after ++ ']' :: r), ho, by rw [h4, skip_blanks ho.1 _ h1], ?_⟩
    rw [e, List.cons_append] at h3
    rw [readItems, h3]
    simp only
    rw [skip_blanks (by decide) _ h2]
    rfl
  | p :: p' :: l, _, hb, ht, hr, n, r, hn => by
    obtain ⟨c, cs, e, ho⟩ := valText_head (ht p List.mem_cons_self)
    obtain ⟨m, rfl⟩ : ∃ m, n = m + 1 := ⟨n - 1, by omega⟩
    obtain ⟨h1, h2⟩ := hb p List.mem_cons_self
    simp only [commaed, List.length_append, List.length_cons] at hn
    have h3 := hr p List.mem_cons_self m (p.after ++ ',' :: (commaed (p' :: l) ++ ']' :: r)) (by omega)
      (stops_blanks h2 (stops_cons (by decide)))
    have h4 : commaed (p :: p' :: l) ++ ']' :: r =
        p.before ++ c :: (cs ++ (p.after ++ ',' :: (commaed (p' :: l) ++ ']' :: r))) := by simp [commaed, e]
    obtain ⟨c', s', _, h5, h6⟩ := readItems_of (p' :: l) (by simp) (fun x hx => hb x (List.mem_cons_of_mem _ hx))
      (fun x hx => ht x (List.mem_cons_of_mem _ hx)) (fun x hx => hr x (List.mem_cons_of_mem _ hx)) m r (by omega)
    refine ⟨c, cs ++ (p.after ++ ',' :: (commaed (p' :: l) ++ ']' :: r)), ho, by rw [h4, skip_blanks ho.1 _ h1], ?_⟩
    rw [e, List.cons_append] at h3
    rw [readItems, h3]
    simp only
    rw [skip_blanks (by decide) _ h2]
    simp only
    rw [h5, h6]
    rfl

theorem readPairs_of : ∀ (l : List PieceAt), l ≠ [] →
    (∀ e ∈ l, Blanks e.blank ∧ Blanks e.colon ∧ Blanks e.piece.before ∧ Blanks e.piece.after) →
    (∀ e ∈ l, StrText e.name e.keyText) → (∀ e ∈ l, ValText e.piece.val e.piece.text) →
    (∀ e ∈ l, ReadAs e.piece.val e.piece.text) → ∀ n r, (colons l).length + 1 ≤ n →
    ∃ s, skip (colons l ++ '}' :: r) = '"' :: s ∧ readPairs n ('"' :: s) = some (l.map (fun e => (e.name, e.piece.val)), r)
  | [], h, _, _, _, _, _, _, _ => absurd rfl h
  | [p], _, hb, hk, ht, hr, n, r, hn => by
    obtain ⟨c, cs, e, ho⟩ := valText_head (ht p List.mem_cons_self)
    obtain ⟨m, rfl⟩ : ∃ m, n = m + 1 := ⟨n - 1, by omega⟩
    obtain ⟨h1, h2, h1', h2'⟩ := hb p List.mem_cons_self
    have hl : p.piece.text.length ≤ m := by simp only [colons, List.length_append, List.length_cons] at hn; omega
    have h3 := hr p List.mem_cons_self m (p.piece.after ++ '}' :: r) hl (stops_blanks h2' (stops_cons (by decide)))
    have h4 : colons [p] ++ '}' :: r = p.blank ++ '"' :: (p.keyText ++ '"' :: (p.colon ++ ':' :: (p.piece.before ++
        c :: (cs ++ (p.piece.after ++ '}' :: r))))) := by simp [colons, e]
    refine ⟨p.keyText ++ '"' :: (p.colon ++ ':' :: (p.piece.before ++ c :: (cs ++ (p.piece.after ++ '}' :: r)))),
      by rw [h4, skip_blanks (by decide) _ h1], ?_⟩
    rw [e, List.cons_append] at h3
    rw [readPairs]
    rw [readStr_of' (hk p List.mem_cons_self)]
    simp only
    rw [skip_blanks (by decide) _ h2]
    simp only
    rw [skip_blanks ho.1 _ h1', h3]
    simp only
    rw [skip_blanks (by decide) _ h2']
    rfl
  | p :: p' :: l, _, hb, hk, ht, hr, n, r, hn => by
    obtain ⟨c, cs, e, ho⟩ := valText_head (ht p List.mem_cons_self)
    obtain ⟨m, rfl⟩ : ∃ m, n = m + 1 := ⟨n - 1, by omega⟩
    obtain ⟨h1, h2, h1', h2'⟩ := hb p List.mem_cons_self
    simp only [colons, List.length_append, List.length_cons] at hn
    have h3 := hr p List.mem_cons_self m (p.piece.after ++ ',' :: (colons (p' :: l) ++ '}' :: r)) (by omega)
      (stops_blanks h2' (stops_cons (by decide)))
    have h4 : colons (p :: p' :: l) ++ '}' :: r = p.blank ++ '"' :: (p.keyText ++ '"' :: (p.colon ++ ':' :: (p.piece.before ++
        c :: (cs ++ (p.piece.after ++ ',' :: (colons (p' :: l) ++ '}' :: r)))))) := by simp [colons, e]
    obtain ⟨s', h5, h6⟩ := readPairs_of (p' :: l) (by simp) (fun x hx => hb x (List.mem_cons_of_mem _ hx))
      (fun x hx => hk x (List.mem_cons_of_mem _ hx)) (fun x hx => ht x (List.mem_cons_of_mem _ hx))
      (fun x hx => hr x (List.mem_cons_of_mem _ hx)) m r (by omega)
    refine ⟨p.keyText ++ '"' :: (p.colon ++ ':' :: (p.piece.before ++ c :: (cs ++ (p.piece.after ++ ',' ::
      (colons (p' :: l) ++ '}' :: r))))), by rw [h4, skip_blanks (by decide) _ h1], ?_⟩
    rw [e, List.cons_append] at h3
    rw [readPairs]
    rw [readStr_of' (hk p List.mem_cons_self)]
    simp only
    rw [skip_blanks (by decide) _ h2]
    simp only
    rw [skip_blanks ho.1 _ h1', h3]
    simp only
    rw [skip_blanks (by decide) _ h2']
    simp only
    rw [h5, h6]
    rfl

theorem readVal_of {v : Val} {s : Str} (h : ValText v s) : ReadAs v s := by
  induction h with
  | null =>
    intro n r hn _
    obtain ⟨m, rfl⟩ : ∃ m, n = m + 1 := ⟨n - 1, by simp at hn; omega⟩
    rfl
  | true =>
    intro n r hn _
    obtain ⟨m, rfl⟩ : ∃ m, n = m + 1 := ⟨n - 1, by simp at hn; omega⟩
    rfl
  | false =>
    intro n r hn _
    obtain ⟨m, rfl⟩ : ∃ m, n = m + 1 := ⟨n - 1, by simp at hn; omega⟩
    rfl
  | num z s h =>
    intro n r hn hr
    have e := readNum_of h hr
    obtain ⟨c, cs, rfl, h2⟩ := numText_head h
    obtain ⟨m, rfl⟩ : ∃ m, n = m + 1 := ⟨n - 1, by simp at hn; omega⟩
    rw [List.cons_append] at e ⊢
    have hc : ∀ x, isDigit x = false → x ≠ '-' → c ≠ x := by
      rintro x hx hm rfl
      rcases h2 with h2 | h2
      · rw [hx] at h2; cases h2
      · exact hm h2
    rw [readVal, if_neg (hc _ (by decide) (by decide)), if_neg (hc _ (by decide) (by decide)),
      if_neg (hc _ (by decide) (by decide)), if_neg (hc _ (by decide) (by decide)),
      if_neg (hc _ (by decide) (by decide)), if_neg (hc _ (by decide) (by decide)), e]
    rfl
  | str t s h =>
    intro n r hn _
    obtain ⟨m, rfl⟩ : ∃ m, n = m + 1 := ⟨n - 1, by simp at hn; omega⟩
    have e : '"' :: s ++ ['"'] ++ r = '"' :: (s ++ '"' :: r) := by simp
    rw [e, readVal, if_pos rfl, readStr_of' h]
    rfl
  | noItems b hb =>
    intro n r hn _
    obtain ⟨m, rfl⟩ : ∃ m, n = m + 1 := ⟨n - 1, by simp at hn; omega⟩
    have e : '[' :: b ++ [']'] ++ r = '[' :: (b ++ ']' :: r) := by simp
    rw [e, readVal, if_neg (by decide), if_neg (by decide), if_pos rfl, skip_blanks (by decide) _ hb]
    rfl
  | items l hne hb ht ih =>
    intro n r hn _
    obtain ⟨m, rfl⟩ : ∃ m, n = m + 1 := ⟨n - 1, by simp at hn; omega⟩
    have e : '[' :: commaed l ++ [']'] ++ r = '[' :: (commaed l ++ ']' :: r) := by simp
    obtain ⟨c, s, ho, h1, h2⟩ := readItems_of l hne hb ht ih m r (by
      simp only [List.cons_append, List.length_cons, List.length_append, List.length_nil] at hn; omega)
    rw [e, readVal_open_list m h1 ho.2.1, h2]
    rfl
  | noEntries b hb =>
    intro n r hn _
    obtain ⟨m, rfl⟩ : ∃ m, n = m + 1 := ⟨n - 1, by simp at hn; omega⟩
    have e : '{' :: b ++ ['}'] ++ r = '{' :: (b ++ '}' :: r) := by simp
    rw [e, readVal, if_neg (by decide), if_pos rfl, skip_blanks (by decide) _ hb]
    rfl
  | entries l hne hb hk ht ih =>
    intro n r hn _
    obtain ⟨m, rfl⟩ : ∃ m, n = m + 1 := ⟨n - 1, by simp at hn; omega⟩
    have e : '{' :: colons l ++ ['}'] ++ r = '{' :: (colons l ++ '}' :: r) := by simp
    obtain ⟨s, h1, h2⟩ := readPairs_of l hne hb hk ht ih m r (by
      simp only [List.cons_append, List.length_cons, List.length_append, List.length_nil] at hn; omega)
    rw [e, readVal_open_dict m h1 (by decide), h2]
    rfl

/-! ### What is read the grammar allows -/

theorem commaed_before (b : Str) (p : Piece) (l : List Piece) :
    commaed ({ p with before := b ++ p.before } :: l) = b ++ commaed (p :: l) := by
  cases l <;> simp [commaed]

theorem colons_before (b : Str) (p : PieceAt) (l : List PieceAt) :
    colons ({ p with blank := b ++ p.blank } :: l) = b ++ colons (p :: l) := by
  cases l <;> simp [colons]

/-- Items as the grammar has them. -/
def GoodItems (l : List Piece) : Prop :=
  l ≠ [] ∧ (∀ p ∈ l, Blanks p.before ∧ Blanks p.after) ∧ ∀ p ∈ l, ValText p.val p.text

def GoodEntries (l : List PieceAt) : Prop :=
  l ≠ [] ∧ (∀ e ∈ l, Blanks e.blank ∧ Blanks e.colon ∧ Blanks e.piece.before ∧ Blanks e.piece.after) ∧
    (∀ e ∈ l, StrText e.name e.keyText) ∧ ∀ e ∈ l, ValText e.piece.val e.piece.text

theorem of_readWord {w s r : Str} {v x : Val} (h : readWord w v s = some (x, r)) : s = w ++ r ∧ x = v := by
  unfold readWord at h
  split at h
  · rename_i hw
    obtain ⟨t, rfl⟩ := List.isPrefixOf_iff_prefix.mp hw
    simp only [List.drop_left, Option.some.injEq, Prod.mk.injEq] at h
    exact ⟨by rw [h.2], h.1.symm⟩
  · cases h

theorem of_read : ∀ n,
    (∀ s v r, readVal n s = some (v, r) → ∃ t, s = t ++ r ∧ ValText v t) ∧
    (∀ s vs r, readItems n s = some (vs, r) → ∃ l, GoodItems l ∧ s = commaed l ++ ']' :: r ∧ l.map (·.val) = vs) ∧
    (∀ s d r, readPairs n s = some (d, r) →
      ∃ l, GoodEntries l ∧ s = colons l ++ '}' :: r ∧ l.map (fun e => (e.name, e.piece.val)) = d) := by
  intro n
  induction n with
  | zero =>
    refine ⟨?_, ?_, ?_⟩
    · intro s v r h
      rw [readVal] at h
      cases h
    · intro s v r h
      rw [readItems] at h
      cases h
    · intro s v r h
      rw [readPairs] at h
      cases h
  | succ n ih =>
    obtain ⟨ihv, ihi, ihp⟩ := ih
    refine ⟨?_, ?_, ?_⟩
    · intro s v r h
      match s, h with
      | [], h => rw [readVal] at h; cases h
      | c :: t, h =>
        rw [readVal] at h
        split at h
        · rename_i hc
          subst hc
          cases hs : readStr t.length t with
          | none => rw [hs] at h; cases h
          | some p =>
            obtain ⟨x, u⟩ := p
            rw [hs] at h
            simp only [Option.map_some, Option.some.injEq, Prod.mk.injEq] at h
            obtain ⟨rfl, rfl⟩ := h
            obtain ⟨y, rfl, hy⟩ := of_readStr _ hs
            exact ⟨'"' :: y ++ ['"'], by simp, .str x y hy⟩
        split at h
        · rename_i hc
          subst hc
          obtain ⟨b, hb, hbt⟩ := of_skip t
          split at h
          · rename_i u heq
            simp only [Option.some.injEq, Prod.mk.injEq] at h
            obtain ⟨rfl, rfl⟩ := h
            rw [heq] at hbt
            exact ⟨'{' :: b ++ ['}'], by rw [hbt]; simp, .noEntries b hb⟩
          · cases hp : readPairs n (skip t) with
            | none => rw [hp] at h; cases h
            | some p =>
              obtain ⟨d, u⟩ := p
              rw [hp] at h
              simp only [Option.map_some, Option.some.injEq, Prod.mk.injEq] at h
              obtain ⟨rfl, rfl⟩ := h
              obtain ⟨l, ⟨g1, g2, g3, g4⟩, h1, h2⟩ := ihp _ _ _ hp
              match l, g1, g2, g3, g4, h1, h2 with
              | e :: l, _, g2, g3, g4, h1, h2 =>
                rw [List.forall_mem_cons] at g2 g3 g4
                have := ValText.entries ({ e with blank := b ++ e.blank } :: l) (by simp)
                  (by rw [List.forall_mem_cons]; exact ⟨⟨blanks_append hb g2.1.1, g2.1.2⟩, g2.2⟩)
                  (by rw [List.forall_mem_cons]; exact g3) (by rw [List.forall_mem_cons]; exact g4)
                rw [colons_before] at this
                refine ⟨_, ?_, h2 ▸ this⟩
                rw [hbt, h1]
                simp
        split at h
        · rename_i hc
          subst hc
          obtain ⟨b, hb, hbt⟩ := of_skip t
          split at h
          · rename_i u heq
            simp only [Option.some.injEq, Prod.mk.injEq] at h
            obtain ⟨rfl, rfl⟩ := h
            rw [heq] at hbt
            exact ⟨'[' :: b ++ [']'], by rw [hbt]; simp, .noItems b hb⟩
          · cases hp : readItems n (skip t) with
            | none => rw [hp] at h; cases h
            | some p =>
              obtain ⟨d, u⟩ := p
              rw [hp] at h
              simp only [Option.map_some, Option.some.injEq, Prod.mk.injEq] at h
              obtain ⟨rfl, rfl⟩ := h
              obtain ⟨l, ⟨g1, g2, g3⟩, h1, h2⟩ := ihi _ _ _ hp
              match l, g1, g2, g3, h1, h2 with
              | e :: l, _, g2, g3, h1, h2 =>
                rw [List.forall_mem_cons] at g2 g3
                have := ValText.items ({ e with before := b ++ e.before } :: l) (by simp)
                  (by rw [List.forall_mem_cons]; exact ⟨⟨blanks_append hb g2.1.1, g2.1.2⟩, g2.2⟩)
                  (by rw [List.forall_mem_cons]; exact g3)
                rw [commaed_before] at this
                refine ⟨_, ?_, h2 ▸ this⟩
                rw [hbt, h1]
                simp
        split at h
        · obtain ⟨h1, rfl⟩ := of_readWord h
          exact ⟨_, h1, .null⟩
        split at h
        · obtain ⟨h1, rfl⟩ := of_readWord h
          exact ⟨_, h1, .true⟩
        split at h
        · obtain ⟨h1, rfl⟩ := of_readWord h
          exact ⟨_, h1, .false⟩
        cases hz : readNum (c :: t) with
        | none => rw [hz] at h; cases h
        | some p =>
          obtain ⟨z, u⟩ := p
          rw [hz] at h
          simp only [Option.map_some, Option.some.injEq, Prod.mk.injEq] at h
          obtain ⟨rfl, rfl⟩ := h
          obtain ⟨x, hx, hzx⟩ := of_readNum hz
          exact ⟨x, hx, .num z x hzx⟩
    · intro s vs r h
      rw [readItems] at h
      cases hv : readVal n s with
      | none => rw [hv] at h; cases h
      | some p =>
        obtain ⟨v, u⟩ := p
        obtain ⟨t, rfl, ht⟩ := ihv _ _ _ hv
        rw [hv] at h
        simp only at h
        obtain ⟨b, hb, hbu⟩ := of_skip u
        split at h
        · rename_i u' hu
          cases hi : readItems n (skip u') with
          | none => rw [hi] at h; cases h
          | some p =>
            obtain ⟨l', w⟩ := p
            rw [hi] at h
            simp only [Option.some.injEq, Prod.mk.injEq] at h
            obtain ⟨rfl, rfl⟩ := h
            obtain ⟨l, ⟨g1, g2, g3⟩, h1, h2⟩ := ihi _ _ _ hi
            obtain ⟨b', hb', hbu'⟩ := of_skip u'
            match l, g1, g2, g3, h1, h2 with
            | e :: l, _, g2, g3, h1, h2 =>
              rw [List.forall_mem_cons] at g2 g3
              refine ⟨⟨[], v, t, b⟩ :: { e with before := b' ++ e.before } :: l, ⟨by simp, ?_, ?_⟩, ?_, ?_⟩
              · rw [List.forall_mem_cons, List.forall_mem_cons]
                exact ⟨⟨blanks_nil, hb⟩, ⟨blanks_append hb' g2.1.1, g2.1.2⟩, g2.2⟩
              · rw [List.forall_mem_cons, List.forall_mem_cons]
                exact ⟨ht, g3⟩
              · rw [commaed, commaed_before, hbu, hu, hbu', h1]
                · simp
                · simp
              · rw [List.map_cons, ← h2]
                rfl
        · rename_i u' hu
          simp only [Option.some.injEq, Prod.mk.injEq] at h
          obtain ⟨rfl, rfl⟩ := h
          refine ⟨[⟨[], v, t, b⟩], ⟨by simp, ?_, ?_⟩, ?_, rfl⟩
          · rw [List.forall_mem_cons]; exact ⟨⟨blanks_nil, hb⟩, by simp⟩
          · rw [List.forall_mem_cons]; exact ⟨ht, by simp⟩
          · rw [commaed, hbu, hu]; simp
        · cases h
    · intro s d r h
      have hs : ∃ t, s = '"' :: t := by
        rw [readPairs.eq_def] at h
        simp only at h
        split at h
        · exact ⟨_, rfl⟩
        · cases h
      obtain ⟨t, rfl⟩ := hs
      rw [readPairs] at h
      cases hk : readStr t.length t with
      | none => rw [hk] at h; cases h
      | some p =>
        obtain ⟨k, a⟩ := p
        obtain ⟨kt, rfl, hkt⟩ := of_readStr _ hk
        rw [hk] at h
        simp only at h
        obtain ⟨bc, hbc, hba⟩ := of_skip a
        split at h
        · rename_i a' ha
          obtain ⟨bv, hbv, hba'⟩ := of_skip a'
          cases hv : readVal n (skip a') with
          | none => rw [hv] at h; cases h
          | some p =>
            obtain ⟨v, u⟩ := p
            obtain ⟨x, hx, ht⟩ := ihv _ _ _ hv
            rw [hv] at h
            simp only at h
            obtain ⟨b, hb, hbu⟩ := of_skip u
            split at h
            · rename_i u' hu
              cases hi : readPairs n (skip u') with
              | none => rw [hi] at h; cases h
              | some p =>
                obtain ⟨l', w⟩ := p
                rw [hi] at h
                simp only [Option.some.injEq, Prod.mk.injEq] at h
                obtain ⟨rfl, rfl⟩ := h
                obtain ⟨l, ⟨g1, g2, g3, g4⟩, h1, h2⟩ := ihp _ _ _ hi
                obtain ⟨b', hb', hbu'⟩ := of_skip u'
                match l, g1, g2, g3, g4, h1, h2 with
                | e :: l, _, g2, g3, g4, h1, h2 =>
                  rw [List.forall_mem_cons] at g2 g3 g4
                  refine ⟨⟨[], k, kt, bc, ⟨bv, v, x, b⟩⟩ :: { e with blank := b' ++ e.blank } :: l, ⟨by simp, ?_, ?_, ?_⟩, ?_, ?_⟩
                  · rw [List.forall_mem_cons, List.forall_mem_cons]
                    exact ⟨⟨blanks_nil, hbc, hbv, hb⟩, ⟨blanks_append hb' g2.1.1, g2.1.2⟩, g2.2⟩
                  · rw [List.forall_mem_cons, List.forall_mem_cons]
                    exact ⟨hkt, g3⟩
                  · rw [List.forall_mem_cons, List.forall_mem_cons]
                    exact ⟨ht, g4⟩
                  · rw [colons, colons_before, hba, ha, hba', hx, hbu, hu, hbu', h1]
                    · simp
                    · simp
                  · rw [List.map_cons, ← h2]
                    rfl
            · rename_i u' hu
              simp only [Option.some.injEq, Prod.mk.injEq] at h
              obtain ⟨rfl, rfl⟩ := h
              refine ⟨[⟨[], k, kt, bc, ⟨bv, v, x, b⟩⟩], ⟨by simp, ?_, ?_, ?_⟩, ?_, rfl⟩
              · rw [List.forall_mem_cons]; exact ⟨⟨blanks_nil, hbc, hbv, hb⟩, by simp⟩
              · rw [List.forall_mem_cons]; exact ⟨hkt, by simp⟩
              · rw [List.forall_mem_cons]; exact ⟨ht, by simp⟩
              · rw [colons, hba, ha, hba', hx, hbu, hu]; simp
            · cases h
        · cases h

end Nxt.JsonText
