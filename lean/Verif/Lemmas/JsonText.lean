import Verif.Spec.JsonText
import Verif.Lemmas.Names
import Verif.Lemmas.Py
/-!
# Lemmas: what is written as JSON is read back
-/
namespace Nxt.JsonText
open Names Spec

theorem hexVal_digit : ∀ k, k < 16 → hexVal (hexDigit k) = some k := by decide

theorem readHex_hex4 (n : Nat) (h : n < 65536) (r : Str) : readHex (hex4 n ++ r) = some (n, r) := by
  have h1 := hexVal_digit (n / 4096 % 16) (Nat.mod_lt _ (by decide))
  have h2 := hexVal_digit (n / 256 % 16) (Nat.mod_lt _ (by decide))
  have h3 := hexVal_digit (n / 16 % 16) (Nat.mod_lt _ (by decide))
  have h4 := hexVal_digit (n % 16) (Nat.mod_lt _ (by decide))
  simp only [hex4, List.cons_append, List.nil_append, readHex, h1, h2, h3, h4]
  have : ((n / 4096 % 16 * 16 + n / 256 % 16) * 16 + n / 16 % 16) * 16 + n % 16 = n := by omega
  rw [this]

theorem char_range (c : Char) : c.toNat < 0xd800 ∨ (0xdfff < c.toNat ∧ c.toNat < 0x110000) := c.valid

theorem readUnicode_one {r r' : Str} {n : Nat} (h : readHex r = some (n, r')) (h1 : ¬ (0xd800 ≤ n ∧ n < 0xdc00))
    (h2 : ¬ (0xdc00 ≤ n ∧ n < 0xe000)) : readUnicode r = some (Char.ofNat n, r') := by
  unfold readUnicode
  rw [h]
  simp only [if_neg h1, if_neg h2]

theorem readUnicode_two {r r' r'' : Str} {n m : Nat} (h : readHex r = some (n, '\\' :: 'u' :: r'))
    (h' : readHex r' = some (m, r'')) (h1 : 0xd800 ≤ n ∧ n < 0xdc00) (h2 : 0xdc00 ≤ m ∧ m < 0xe000) :
    readUnicode r = some (Char.ofNat (0x10000 + (n - 0xd800) * 1024 + (m - 0xdc00)), r'') := by
  unfold readUnicode
  rw [h]
  simp only [if_pos h1, h', if_pos h2]

theorem ofNat_toNat' {c : Char} {n : Nat} (h : n = c.toNat) : Char.ofNat n = c := by
  rw [h, Char.ofNat_toNat]

theorem readUnicode_bmp (c : Char) (h : c.toNat < 0x10000) (r : Str) :
    readUnicode (hex4 c.toNat ++ r) = some (c, r) := by
  have hv := char_range c
  rw [readUnicode_one (readHex_hex4 _ h r) (by omega) (by omega), Char.ofNat_toNat]

theorem pair_numbers {n : Nat} (h : ¬ n < 0x10000) (h2 : n < 0x110000) :
    (0xd800 ≤ 0xd800 + (n - 0x10000) / 1024 ∧ 0xd800 + (n - 0x10000) / 1024 < 0xdc00) ∧
    (0xdc00 ≤ 0xdc00 + (n - 0x10000) % 1024 ∧ 0xdc00 + (n - 0x10000) % 1024 < 0xe000) ∧
    0x10000 + (0xd800 + (n - 0x10000) / 1024 - 0xd800) * 1024 + (0xdc00 + (n - 0x10000) % 1024 - 0xdc00) = n := by
  omega

theorem readUnicode_both (c : Char) (n m : Nat) (h1 : 0xd800 ≤ n ∧ n < 0xdc00) (h2 : 0xdc00 ≤ m ∧ m < 0xe000)
    (h3 : 0x10000 + (n - 0xd800) * 1024 + (m - 0xdc00) = c.toNat) (r : Str) :
    readUnicode (hex4 n ++ ('\\' :: 'u' :: (hex4 m ++ r))) = some (c, r) := by
  have e1 := readHex_hex4 n (by omega) ('\\' :: 'u' :: (hex4 m ++ r))
  have e2 := readHex_hex4 m (by omega) r
  exact (readUnicode_two e1 e2 h1 h2).trans (congrArg (fun x => some (x, r)) (ofNat_toNat' h3))

theorem char_below (c : Char) : c.toNat < 0x110000 := by
  rcases char_range c with h | h
  · exact Nat.lt_trans h (by decide)
  · exact h.2

theorem readUnicode_split (c : Char) (n : Nat) (hn : n = c.toNat) (h : ¬ n < 0x10000) (hb : n < 0x110000) (r : Str) :
    readUnicode (hex4 (0xd800 + (n - 0x10000) / 1024) ++
      ('\\' :: 'u' :: (hex4 (0xdc00 + (n - 0x10000) % 1024) ++ r))) = some (c, r) := by
  obtain ⟨h1, h2, h3⟩ := pair_numbers h hb
  exact readUnicode_both c _ _ h1 h2 (h3.trans hn) r

theorem readUnicode_pair (c : Char) (h : ¬ c.toNat < 0x10000) (r : Str) :
    readUnicode (hex4 (0xd800 + (c.toNat - 0x10000) / 1024) ++
      ('\\' :: 'u' :: (hex4 (0xdc00 + (c.toNat - 0x10000) % 1024) ++ r))) = some (c, r) :=
  readUnicode_split c _ rfl h (char_below c) r

theorem toNat_inj {c d : Char} (h : c.toNat = d.toNat) : c = d := by
  rw [← Char.ofNat_toNat c, h, Char.ofNat_toNat]

theorem readChar_u (r : Str) : readChar ('\\' :: 'u' :: r) = readUnicode r := rfl

/-- A written character is read back. -/
theorem readChar_escape (c : Char) (r : Str) : readChar (escape c ++ r) = some (c, r) := by
  unfold escape
  split
  · rename_i h; subst h; rfl
  split
  · rename_i h; subst h; rfl
  split
  · rename_i h; subst h; rfl
  split
  · rename_i h; subst h; rfl
  split
  · rename_i h; subst h; rfl
  split
  · rename_i h
    have : c = Char.ofNat 12 := toNat_inj h
    subst this; rfl
  split
  · rename_i h
    have : c = Char.ofNat 8 := toNat_inj h
    subst this; rfl
  split
  · rename_i hb _ _ _ _ _ h
    simp only [List.cons_append, List.nil_append, readChar]
    rw [if_neg hb, if_neg (by omega)]
  split
  · rename_i h
    exact (readChar_u _).trans (readUnicode_bmp c h r)
  · rename_i h
    simp only [List.cons_append, List.append_assoc]
    exact (readChar_u _).trans (readUnicode_pair c h r)

/-- A written character does not begin with a quote. -/
theorem escape_head (c : Char) : ∃ x xs, escape c = x :: xs ∧ x ≠ '"' := by
  unfold escape
  split
  · exact ⟨_, _, rfl, by decide⟩
  rename_i hq
  repeat' split
  all_goals first
    | exact ⟨_, _, rfl, by decide⟩
    | exact ⟨_, _, rfl, hq⟩

theorem readStr_escape (s : Str) : ∀ (fuel : Nat) (r : Str), s.length < fuel →
    readStr fuel (s.flatMap escape ++ '"' :: r) = some (s, r) := by
  induction s with
  | nil =>
    intro fuel r h
    cases fuel with
    | zero => exact absurd h (Nat.not_lt_zero _)
    | succ n => rfl
  | cons c s ih =>
    intro fuel r h
    cases fuel with
    | zero => exact absurd h (Nat.not_lt_zero _)
    | succ n =>
      obtain ⟨x, xs, hx, hq⟩ := escape_head c
      have hr := readChar_escape c (s.flatMap escape ++ '"' :: r)
      rw [List.flatMap_cons, List.append_assoc]
      rw [hx, List.cons_append] at hr ⊢
      rw [readStr, if_neg hq, hr]
      simp only
      rw [ih n r (by simp only [List.length_cons] at h; omega)]

theorem escape_length (s : Str) : s.length ≤ (s.flatMap escape).length := by
  induction s with
  | nil => exact Nat.le_refl _
  | cons c s ih =>
    obtain ⟨x, xs, hx, _⟩ := escape_head c
    rw [List.flatMap_cons, hx]
    simp only [List.length_cons, List.length_append]
    omega

/-- A text between quotes is read back. -/
theorem readStr_quote (s r : Str) :
    readStr (s.flatMap escape ++ '"' :: r).length (s.flatMap escape ++ '"' :: r) = some (s, r) := by
  apply readStr_escape
  have := escape_length s
  simp only [List.length_append, List.length_cons]
  omega

/-! ### Numbers -/

/-- What may follow a value. -/
def Stops (r : Str) : Prop := ∀ c, r.head? = some c → isDigit c = false ∧ c ≠ '.' ∧ c ≠ 'e' ∧ c ≠ 'E'

theorem dec_isDigit (n : Nat) : ∀ c ∈ dec n, isDigit c = true := by
  intro c hc
  have := dec_digits n c hc
  have key : ∀ c ∈ "0123456789".toList, isDigit c = true := by decide
  exact key c this

theorem dec_zero (n : Nat) (t : Str) (h : dec n = '0' :: t) : t = [] := by
  have key : ∀ n, (dec n).head? = some '0' → n = 0 := by
    intro n
    induction n using Nat.strongRecOn with
    | _ n ih =>
      intro h
      rw [dec] at h
      split at h
      · rename_i hn
        have hd : ∀ k, k < 10 → [digitChar k].head? = some '0' → k = 0 := by decide
        exact hd n hn h
      · rename_i hn
        rw [List.head?_append] at h
        cases hd : dec (n / 10) with
        | nil => exact absurd hd (dec_ne_nil _)
        | cons c s =>
          rw [hd] at h
          have := ih (n / 10) (by omega) (by rw [hd]; exact h)
          omega
  have h0 := key n (by rw [h]; rfl)
  subst h0
  have : dec 0 = ['0'] := by rw [dec]; rfl
  rw [this] at h
  cases h
  rfl

theorem takeWhile_stops {ds r : Str} (hd : ∀ c ∈ ds, isDigit c = true) (hr : Stops r) :
    (ds ++ r).takeWhile isDigit = ds ∧ (ds ++ r).dropWhile isDigit = r := by
  induction ds with
  | nil =>
    cases r with
    | nil => exact ⟨rfl, rfl⟩
    | cons c r =>
      have := (hr c rfl).1
      simp [this]
  | cons c ds ih =>
    have h1 := hd c List.mem_cons_self
    have h2 := ih (fun c hc => hd c (List.mem_cons_of_mem _ hc))
    simp [h1, h2.1, h2.2]

theorem readNat_dec (n : Nat) (r : Str) (hr : Stops r) : readNat (dec n ++ r) = some (n, r) := by
  cases hd : dec n with
  | nil => exact absurd hd (dec_ne_nil n)
  | cons c ds =>
    have hdig := dec_isDigit n
    rw [hd] at hdig
    have hc := hdig c List.mem_cons_self
    have hv := decVal_dec n
    rw [hd] at hv
    rw [List.cons_append, readNat]
    simp only [hc, Bool.not_true, Bool.false_eq_true, if_false]
    by_cases h0 : c = '0'
    · subst h0
      have := dec_zero n ds hd
      subst this
      simp only [if_true, List.nil_append]
      rw [hv]
      split
      · exact absurd rfl (hr _ rfl).2.1
      · exact absurd rfl (hr _ rfl).2.2.1
      · exact absurd rfl (hr _ rfl).2.2.2
      · rfl
    · obtain ⟨h1, h2⟩ := takeWhile_stops (fun c hc => hdig c (List.mem_cons_of_mem _ hc)) hr
      simp only [if_neg h0, h1, h2]
      rw [hv]
      split
      · exact absurd rfl (hr _ rfl).2.1
      · exact absurd rfl (hr _ rfl).2.2.1
      · exact absurd rfl (hr _ rfl).2.2.2
      · rfl

theorem dec_head (n : Nat) : ∃ c ds, dec n = c :: ds ∧ isDigit c = true := by
  cases hd : dec n with
  | nil => exact absurd hd (dec_ne_nil n)
  | cons c ds => exact ⟨c, ds, rfl, dec_isDigit n c (by rw [hd]; exact List.mem_cons_self)⟩

theorem readNum_text (z : Int) (r : Str) (hr : Stops r) : readNum (intText z ++ r) = some (z, r) := by
  cases z with
  | ofNat n =>
    obtain ⟨c, ds, hd, hc⟩ := dec_head n
    have h := readNat_dec n r hr
    show readNum (dec n ++ r) = _
    rw [hd] at h ⊢
    have hm : c ≠ '-' := by rintro rfl; exact absurd hc (by decide)
    unfold readNum
    split
    · rename_i heq
      exact absurd (List.cons.inj heq).1 hm
    · rw [h]; rfl
  | negSucc n =>
    show readNum ('-' :: (dec (n + 1) ++ r)) = _
    unfold readNum
    simp only
    rw [readNat_dec _ r hr]
    rfl

/-- The first character of a number. -/
theorem intText_head (z : Int) : ∃ c cs, intText z = c :: cs ∧ (isDigit c = true ∨ c = '-') := by
  cases z with
  | ofNat n =>
    obtain ⟨c, ds, hd, hc⟩ := dec_head n
    exact ⟨c, ds, hd, .inl hc⟩
  | negSucc n => exact ⟨_, _, rfl, .inr rfl⟩

/-! ### Values -/

mutual
/-- How much fuel reading a value takes. -/
def need : Val → Nat
  | .list l => 1 + needItems l
  | .dict d => 1 + needPairs d
  | .src _ _ => 4
  | _ => 1
def needItems : List Val → Nat
  | [] => 0
  | v :: l => 1 + need v + needItems l
def needPairs : List (Str × Val) → Nat
  | [] => 0
  | (_, v) :: d => 1 + need v + needPairs d
end

theorem skip_newline (level : Nat) {c : Char} {s : Str} (h : isBlank c = false) :
    skip (newline level ++ c :: s) = c :: s := by
  have key : ∀ n, (List.replicate n ' ' ++ c :: s).dropWhile isBlank = c :: s := by
    intro n
    induction n with
    | zero => simp [h]
    | succ n ih =>
      rw [List.replicate_succ, List.cons_append, List.dropWhile_cons, if_pos (by decide)]
      exact ih
  show (('\n' :: List.replicate (4 * level) ' ') ++ c :: s).dropWhile isBlank = _
  rw [List.cons_append, List.dropWhile_cons, if_pos (by decide)]
  exact key _

theorem skip_none {c : Char} {s : Str} (h : isBlank c = false) : skip (c :: s) = c :: s := by
  unfold skip
  rw [List.dropWhile_cons, if_neg (by rw [h]; decide)]

/-- Texts of values begin with a character which is no blank and closes nothing. -/
def Opens (c : Char) : Prop := isBlank c = false ∧ c ≠ ']' ∧ c ≠ '}'

theorem dump_head (others : Nat → Str) (level : Nat) {v : Val} (hv : TextVal v) :
    ∃ c cs, dump others level v = c :: cs ∧ Opens c := by
  cases hv with
  | none => exact ⟨'n', _, rfl, by decide, by decide, by decide⟩
  | bool b => cases b <;> exact ⟨_, _, rfl, by decide, by decide, by decide⟩
  | num z =>
    obtain ⟨c, cs, h1, h2⟩ := intText_head z
    refine ⟨c, cs, by rw [dump]; exact h1, ?_⟩
    rcases h2 with h2 | rfl
    · refine ⟨?_, ?_, ?_⟩
      · cases hb : isBlank c with
        | false => rfl
        | true =>
          exfalso
          simp only [isBlank, Bool.or_eq_true, decide_eq_true_eq] at hb
          rcases hb with ((rfl | rfl) | rfl) | rfl <;> exact absurd h2 (by decide)
      · rintro rfl; exact absurd h2 (by decide)
      · rintro rfl; exact absurd h2 (by decide)
    · exact ⟨by decide, by decide, by decide⟩
  | str s => exact ⟨'"', _, rfl, by decide, by decide, by decide⟩
  | src l p => cases l <;> exact ⟨'[', _, rfl, by decide, by decide, by decide⟩
  | list l _ =>
    rw [dump]
    split
    · exact ⟨'[', _, rfl, by decide, by decide, by decide⟩
    · exact ⟨'[', _, rfl, by decide, by decide, by decide⟩
  | dict d _ =>
    rw [dump]
    split
    · exact ⟨'{', _, rfl, by decide, by decide, by decide⟩
    · exact ⟨'{', _, rfl, by decide, by decide, by decide⟩

theorem stops_cons {c : Char} {r : Str} (h : isDigit c = false ∧ c ≠ '.' ∧ c ≠ 'e' ∧ c ≠ 'E') : Stops (c :: r) := by
  intro d hd
  cases hd
  exact h

theorem stops_newline (level : Nat) (r : Str) : Stops (newline level ++ r) := stops_cons (by decide)

theorem readVal_quote (n : Nat) (s r : Str) : readVal (n + 1) (quote s ++ r) = some (.str s, r) := by
  have e : quote s ++ r = '"' :: (s.flatMap escape ++ '"' :: r) := by simp [quote]
  rw [e, readVal, if_pos rfl, readStr_quote]
  rfl

theorem readVal_num (n : Nat) (z : Int) (r : Str) (hr : Stops r) :
    readVal (n + 1) (intText z ++ r) = some (.num z, r) := by
  have h := readNum_text z r hr
  obtain ⟨c, cs, h1, h2⟩ := intText_head z
  rw [h1, List.cons_append] at h ⊢
  have hc : ∀ x, isDigit x = false → x ≠ '-' → c ≠ x := by
    rintro x hx hm rfl
    rcases h2 with h2 | h2
    · rw [hx] at h2; cases h2
    · exact hm h2
  rw [readVal, if_neg (hc _ (by decide) (by decide)), if_neg (hc _ (by decide) (by decide)),
    if_neg (hc _ (by decide) (by decide)), if_neg (hc _ (by decide) (by decide)),
    if_neg (hc _ (by decide) (by decide)), if_neg (hc _ (by decide) (by decide)), h]
  rfl

theorem readVal_open_list (n : Nat) {c : Char} {r s : Str} (hs : skip r = c :: s) (hc : c ≠ ']') :
    readVal (n + 1) ('[' :: r) = (readItems n (c :: s)).map (fun p => (.list p.1, p.2)) := by
  rw [readVal, if_neg (by decide), if_neg (by decide), if_pos rfl, hs]
  split
  · rename_i heq
    exact absurd (List.cons.inj heq).1 hc
  · rfl

theorem readVal_open_dict (n : Nat) {c : Char} {r s : Str} (hs : skip r = c :: s) (hc : c ≠ '}') :
    readVal (n + 1) ('{' :: r) = (readPairs n (c :: s)).map (fun p => (.dict p.1, p.2)) := by
  rw [readVal, if_neg (by decide), if_pos rfl, hs]
  split
  · rename_i heq
    exact absurd (List.cons.inj heq).1 hc
  · rfl

theorem items_comma (others : Nat → Str) (level : Nat) (v : Val) (l : List Val) :
    dumpItems others level [','] (v :: l) = ',' :: dumpItems others level [] (v :: l) := by
  simp [dumpItems]

theorem pairs_comma (others : Nat → Str) (level : Nat) (e : Str × Val) (d : List (Str × Val)) :
    dumpPairs others level [','] (e :: d) = ',' :: dumpPairs others level [] (e :: d) := by
  obtain ⟨k, v⟩ := e
  simp [dumpPairs]

/-- The text of the items begins with one. -/
theorem items_skip (others : Nat → Str) (level : Nat) {v : Val} (hv : TextVal v) (l : List Val) (r : Str) :
    ∃ c s, Opens c ∧ skip (dumpItems others level [] (v :: l) ++ r) = c :: s ∧
      c :: s = dump others level v ++ (dumpItems others level [','] l ++ r) := by
  obtain ⟨c, cs, h1, h2⟩ := dump_head others level hv
  refine ⟨c, cs ++ (dumpItems others level [','] l ++ r), h2, ?_, by rw [h1]; rfl⟩
  have e : dumpItems others level [] (v :: l) ++ r = newline level ++ c :: (cs ++ (dumpItems others level [','] l ++ r)) := by
    rw [dumpItems, h1]; simp
  rw [e, skip_newline level h2.1]

theorem pairs_skip (others : Nat → Str) (level : Nat) (k : Str) (v : Val) (d : List (Str × Val)) (r : Str) :
    skip (dumpPairs others level [] ((k, v) :: d) ++ r) =
      '"' :: (k.flatMap escape ++ '"' :: ':' :: ' ' :: (dump others level v ++ (dumpPairs others level [','] d ++ r))) := by
  have e : dumpPairs others level [] ((k, v) :: d) ++ r = newline level ++
      '"' :: (k.flatMap escape ++ '"' :: ':' :: ' ' :: (dump others level v ++ (dumpPairs others level [','] d ++ r))) := by
    rw [dumpPairs]; simp [quote]
  rw [e, skip_newline level (by decide)]

theorem rest_stops (x : Str) (level : Nat) (c : Char) (r : Str) (hx : x = [] ∨ ∃ t, x = ',' :: t) :
    Stops (x ++ (newline level ++ c :: r)) := by
  rcases hx with rfl | ⟨t, rfl⟩
  · exact stops_newline level _
  · exact stops_cons (by decide)

/-- Two items. -/
theorem readItems_two (n : Nat) (a b : Val) (ta tb r : Str) (k k' : Nat)
    (ha : ∀ r, Stops r → readVal (n + 2) (ta ++ r) = some (a, r))
    (hb : ∀ r, Stops r → readVal (n + 1) (tb ++ r) = some (b, r))
    {c : Char} {s : Str} (htb : tb = c :: s) (hc : isBlank c = false) :
    readItems (n + 3) (ta ++ (',' :: (newline k ++ (tb ++ (newline k' ++ ']' :: r))))) = some ([a, b], r) := by
  rw [readItems, ha _ (stops_cons (by decide))]
  simp only
  rw [skip_none (by decide)]
  simp only
  have e : skip (newline k ++ (tb ++ (newline k' ++ ']' :: r))) = tb ++ (newline k' ++ ']' :: r) := by
    rw [htb, List.cons_append, skip_newline k hc]
  rw [e, readItems, hb _ (stops_newline _ _)]
  simp only
  rw [skip_newline k' (by decide)]
  rfl

mutual
/-- What is written of a value is read back. -/
theorem readVal_dump (others : Nat → Str) : (v : Val) → TextVal v → ∀ (n level : Nat) (r : Str), need v ≤ n → Stops r →
    readVal n (dump others level v ++ r) = some (Disk.written v, r)
  | .none, _, n, _, r, hn, _ => by
    obtain ⟨m, rfl⟩ : ∃ m, n = m + 1 := ⟨n - 1, by simp only [need] at hn; omega⟩
    rfl
  | .bool true, _, n, _, r, hn, _ => by
    obtain ⟨m, rfl⟩ : ∃ m, n = m + 1 := ⟨n - 1, by simp only [need] at hn; omega⟩
    rfl
  | .bool false, _, n, _, r, hn, _ => by
    obtain ⟨m, rfl⟩ : ∃ m, n = m + 1 := ⟨n - 1, by simp only [need] at hn; omega⟩
    rfl
  | .num z, _, n, _, r, hn, hr => by
    obtain ⟨m, rfl⟩ : ∃ m, n = m + 1 := ⟨n - 1, by simp only [need] at hn; omega⟩
    rw [dump, readVal_num m z r hr]
    rfl
  | .str s, _, n, _, r, hn, _ => by
    obtain ⟨m, rfl⟩ : ∃ m, n = m + 1 := ⟨n - 1, by simp only [need] at hn; omega⟩
    rw [dump, readVal_quote]
    rfl
  | .src none p, _, n, level, r, hn, _ => by
    obtain ⟨m, rfl⟩ : ∃ m, n = m + 4 := ⟨n - 4, by simp only [need] at hn; omega⟩
    have e : dump others level (.src none p) ++ r = '[' :: (newline (level + 1) ++
        'n' :: ("ull".toList ++ ',' :: (newline (level + 1) ++ (quote p ++ (newline level ++ ']' :: r))))) := by
      rw [dump]; simp
    rw [e, readVal_open_list (m + 3) (skip_newline _ (by decide)) (by decide)]
    have := readItems_two m .none (.str p) "null".toList (quote p) r (level + 1) level (fun r _ => rfl)
      (fun r _ => readVal_quote m p r) rfl (by decide)
    have e2 : 'n' :: ("ull".toList ++ ',' :: (newline (level + 1) ++ (quote p ++ (newline level ++ ']' :: r)))) =
        "null".toList ++ (',' :: (newline (level + 1) ++ (quote p ++ (newline level ++ ']' :: r)))) := rfl
    rw [e2, this]
    rfl
  | .src (some l) p, _, n, level, r, hn, _ => by
    obtain ⟨m, rfl⟩ : ∃ m, n = m + 4 := ⟨n - 4, by simp only [need] at hn; omega⟩
    have e : dump others level (.src (some l) p) ++ r = '[' :: (newline (level + 1) ++
        '"' :: (l.flatMap escape ++ ['"'] ++ ',' :: (newline (level + 1) ++ (quote p ++ (newline level ++ ']' :: r))))) := by
      rw [dump]; simp [quote]
    rw [e, readVal_open_list (m + 3) (skip_newline _ (by decide)) (by decide)]
    have := readItems_two m (.str l) (.str p) (quote l) (quote p) r (level + 1) level (fun r _ => readVal_quote (m + 1) l r)
      (fun r _ => readVal_quote m p r) rfl (by decide)
    have e2 : '"' :: (l.flatMap escape ++ ['"'] ++ ',' :: (newline (level + 1) ++ (quote p ++ (newline level ++ ']' :: r)))) =
        quote l ++ (',' :: (newline (level + 1) ++ (quote p ++ (newline level ++ ']' :: r)))) := rfl
    rw [e2, this]
    rfl
  | .list [], _, n, _, r, hn, _ => by
    obtain ⟨m, rfl⟩ : ∃ m, n = m + 1 := ⟨n - 1, by simp only [need] at hn; omega⟩
    rfl
  | .list (v :: l), h, n, level, r, hn, _ => by
    obtain ⟨m, rfl⟩ : ∃ m, n = m + 1 := ⟨n - 1, by simp only [need] at hn; omega⟩
    have hl : ∀ x ∈ v :: l, TextVal x := by cases h with | list _ h => exact h
    obtain ⟨c, s, ho, hs, _⟩ := items_skip others (level + 1) (hl v List.mem_cons_self) l (newline level ++ ']' :: r)
    have e : dump others level (.list (v :: l)) ++ r =
        '[' :: (dumpItems others (level + 1) [] (v :: l) ++ (newline level ++ ']' :: r)) := by
      rw [dump]; simp
    have ih := readItems_dump others (v :: l) (by simp) hl m (level + 1) level r (by simp only [need] at hn; omega)
    rw [e, readVal_open_list m hs ho.2.1, ← hs, ih]
    rfl
  | .dict [], _, n, _, r, hn, _ => by
    obtain ⟨m, rfl⟩ : ∃ m, n = m + 1 := ⟨n - 1, by simp only [need] at hn; omega⟩
    rfl
  | .dict ((k, v) :: d), h, n, level, r, hn, _ => by
    obtain ⟨m, rfl⟩ : ∃ m, n = m + 1 := ⟨n - 1, by simp only [need] at hn; omega⟩
    have hl : ∀ x ∈ (k, v) :: d, TextVal x.2 := by cases h with | dict _ h => exact h
    have hs := pairs_skip others (level + 1) k v d (newline level ++ '}' :: r)
    have e : dump others level (.dict ((k, v) :: d)) ++ r =
        '{' :: (dumpPairs others (level + 1) [] ((k, v) :: d) ++ (newline level ++ '}' :: r)) := by
      rw [dump]; simp
    have ih := readPairs_dump others ((k, v) :: d) (by simp) hl m (level + 1) level r (by simp only [need] at hn; omega)
    rw [e, readVal_open_dict m hs (by decide), ← hs, ih]
    rfl
  | .other _ _ _, h, _, _, _, _, _ => nomatch h
theorem readItems_dump (others : Nat → Str) : (l : List Val) → l ≠ [] → (∀ v ∈ l, TextVal v) →
    ∀ (n level k : Nat) (r : Str), needItems l ≤ n →
    readItems n (skip (dumpItems others level [] l ++ (newline k ++ ']' :: r))) = some (Disk.writtenList l, r)
  | [], h, _, _, _, _, _, _ => absurd rfl h
  | v :: l, _, hl, n, level, k, r, hn => by
    obtain ⟨m, rfl⟩ : ∃ m, n = m + 1 := ⟨n - 1, by simp only [needItems] at hn; omega⟩
    simp only [needItems] at hn
    obtain ⟨c, s, _, hs, hc⟩ := items_skip others level (hl v List.mem_cons_self) l (newline k ++ ']' :: r)
    have hst : Stops (dumpItems others level [','] l ++ (newline k ++ ']' :: r)) := by
      apply rest_stops
      cases l with
      | nil => exact .inl rfl
      | cons x l => exact .inr ⟨_, items_comma others level x l⟩
    have ih := readVal_dump others v (hl v List.mem_cons_self) m level _ (by omega) hst
    rw [hs, hc, readItems, ih]
    simp only
    match l, hl, hn with
    | [], _, _ =>
      rw [dumpItems, List.nil_append, skip_newline k (by decide)]
      rfl
    | x :: l, hl, hn =>
      rw [items_comma, List.cons_append, skip_none (by decide)]
      simp only
      rw [readItems_dump others (x :: l) (by simp) (fun y hy => hl y (List.mem_cons_of_mem _ hy)) m level k r (by omega)]
      rfl
theorem readPairs_dump (others : Nat → Str) : (d : List (Str × Val)) → d ≠ [] → (∀ e ∈ d, TextVal e.2) →
    ∀ (n level k : Nat) (r : Str), needPairs d ≤ n →
    readPairs n (skip (dumpPairs others level [] d ++ (newline k ++ '}' :: r))) = some (Disk.writtenDict d, r)
  | [], h, _, _, _, _, _, _ => absurd rfl h
  | (key, v) :: d, _, hl, n, level, k, r, hn => by
    obtain ⟨m, rfl⟩ : ∃ m, n = m + 1 := ⟨n - 1, by simp only [needPairs] at hn; omega⟩
    simp only [needPairs] at hn
    have hv : TextVal v := hl (key, v) List.mem_cons_self
    have hst : Stops (dumpPairs others level [','] d ++ (newline k ++ '}' :: r)) := by
      apply rest_stops
      cases d with
      | nil => exact .inl rfl
      | cons x d => exact .inr ⟨_, pairs_comma others level x d⟩
    have ih := readVal_dump others v hv m level _ (by omega) hst
    obtain ⟨c, cs, h1, h2⟩ := dump_head others level hv
    rw [pairs_skip, readPairs]
    simp only [readStr_quote]
    rw [skip_none (by decide)]
    simp only
    have e : skip (' ' :: (dump others level v ++ (dumpPairs others level [','] d ++ (newline k ++ '}' :: r)))) =
        dump others level v ++ (dumpPairs others level [','] d ++ (newline k ++ '}' :: r)) := by
      show ((' ' :: _ : Str)).dropWhile isBlank = _
      rw [List.dropWhile_cons, if_pos (by decide), h1, List.cons_append]
      exact skip_none h2.1
    rw [e, ih]
    simp only
    match d, hl, hn with
    | [], _, _ =>
      rw [dumpPairs, List.nil_append, skip_newline k (by decide)]
      rfl
    | x :: d, hl, hn =>
      rw [pairs_comma, List.cons_append, skip_none (by decide)]
      simp only
      rw [readPairs_dump others (x :: d) (by simp) (fun y hy => hl y (List.mem_cons_of_mem _ hy)) m level k r (by omega)]
      rfl
end

mutual
theorem need_le (others : Nat → Str) : (v : Val) → TextVal v → ∀ level, need v ≤ (dump others level v).length
  | .none, _, _ => by simp [need, dump]
  | .bool true, _, _ => by simp [need, dump]
  | .bool false, _, _ => by simp [need, dump]
  | .num z, h, level => by
    obtain ⟨c, cs, h1, _⟩ := dump_head others level h
    simp [need, h1]
  | .str s, h, level => by
    obtain ⟨c, cs, h1, _⟩ := dump_head others level h
    simp [need, h1]
  | .src none p, _, level => by simp [need, dump, newline]; omega
  | .src (some l) p, _, level => by simp [need, dump, newline, quote]; omega
  | .list [], _, _ => by simp [need, needItems, dump]
  | .list (v :: l), h, level => by
    have hl : ∀ x ∈ v :: l, TextVal x := by cases h with | list _ h => exact h
    have := needItems_le others (v :: l) hl (level + 1) []
    rw [dump, need]
    simp only [List.isEmpty_cons, Bool.false_eq_true, if_false, List.cons_append, List.length_cons, List.length_append]
    omega
  | .dict [], _, _ => by simp [need, needPairs, dump]
  | .dict (e :: d), h, level => by
    have hl : ∀ x ∈ e :: d, TextVal x.2 := by cases h with | dict _ h => exact h
    have := needPairs_le others (e :: d) hl (level + 1) []
    rw [dump, need]
    simp only [List.isEmpty_cons, Bool.false_eq_true, if_false, List.cons_append, List.length_cons, List.length_append]
    omega
  | .other _ _ _, h, _ => nomatch h
theorem needItems_le (others : Nat → Str) : (l : List Val) → (∀ v ∈ l, TextVal v) →
    ∀ level sep, needItems l ≤ (dumpItems others level sep l).length
  | [], _, _, _ => Nat.zero_le _
  | v :: l, h, level, sep => by
    have h1 := need_le others v (h v List.mem_cons_self) level
    have h2 := needItems_le others l (fun y hy => h y (List.mem_cons_of_mem _ hy)) level [',']
    rw [needItems, dumpItems]
    simp only [List.length_append, newline, List.length_cons]
    omega
theorem needPairs_le (others : Nat → Str) : (d : List (Str × Val)) → (∀ e ∈ d, TextVal e.2) →
    ∀ level sep, needPairs d ≤ (dumpPairs others level sep d).length
  | [], _, _, _ => Nat.zero_le _
  | (k, v) :: d, h, level, sep => by
    have h1 := need_le others v (h (k, v) List.mem_cons_self) level
    have h2 := needPairs_le others d (fun y hy => h y (List.mem_cons_of_mem _ hy)) level [',']
    rw [needPairs, dumpPairs]
    simp only [List.length_append, newline, List.length_cons]
    omega
end

/-- What is written is read back. -/
theorem loadText_dump (others : Nat → Str) (level : Nat) {v : Val} (hv : TextVal v) :
    loadText (dump others level v) = some (Disk.written v) := by
  obtain ⟨c, cs, h1, h2⟩ := dump_head others level hv
  have hs : skip (dump others level v) = dump others level v := by rw [h1, skip_none h2.1]
  have h := readVal_dump others v hv ((dump others level v).length + 1) level []
    (Nat.le_succ_of_le (need_le others v hv level)) (fun _ h => nomatch h)
  rw [List.append_nil] at h
  rw [loadText, hs, h]
  rfl

/-! ### Texts which go on -/

theorem skip_append {s : Str} (h : skip s ≠ []) (q : Str) : skip (s ++ q) = skip s ++ q := by
  induction s with
  | nil => exact absurd rfl h
  | cons c s ih =>
    unfold skip at *
    rw [List.cons_append, List.dropWhile_cons, List.dropWhile_cons] at *
    split
    · rename_i hc
      rw [if_pos hc] at h
      exact ih h
    · rfl

theorem readHex_append {s r : Str} {n : Nat} (h : readHex s = some (n, r)) (q : Str) :
    readHex (s ++ q) = some (n, r ++ q) := by
  match s, h with
  | a :: b :: c :: d :: t, h =>
    simp only [readHex, List.cons_append] at h ⊢
    split at h
    · simp only [Option.some.injEq, Prod.mk.injEq] at h ⊢
      exact ⟨h.1, by rw [h.2]⟩
    · cases h
  | [], h => cases h
  | [_], h => cases h
  | [_, _], h => cases h
  | [_, _, _], h => cases h

theorem readUnicode_append {s r : Str} {x : Char} (h : readUnicode s = some (x, r)) (q : Str) :
    readUnicode (s ++ q) = some (x, r ++ q) := by
  unfold readUnicode at h ⊢
  cases h1 : readHex s with
  | none => rw [h1] at h; cases h
  | some p =>
    obtain ⟨n, t⟩ := p
    rw [readHex_append h1 q]
    rw [h1] at h
    simp only at h ⊢
    by_cases hn : 0xd800 ≤ n ∧ n < 0xdc00
    · rw [if_pos hn] at h ⊢
      split at h
      · rename_i t' 
        simp only [List.cons_append]
        cases h2 : readHex t' with
        | none => rw [h2] at h; cases h
        | some p =>
          obtain ⟨m, u⟩ := p
          rw [readHex_append h2 q]
          rw [h2] at h
          simp only at h ⊢
          by_cases hm : 0xdc00 ≤ m ∧ m < 0xe000
          · rw [if_pos hm] at h ⊢
            simp only [Option.some.injEq, Prod.mk.injEq] at h ⊢
            exact ⟨h.1, by rw [h.2]⟩
          · rw [if_neg hm] at h; cases h
      · cases h
    · rw [if_neg hn] at h ⊢
      by_cases hm : 0xdc00 ≤ n ∧ n < 0xe000
      · rw [if_pos hm] at h; cases h
      · rw [if_neg hm] at h ⊢
        simp only [Option.some.injEq, Prod.mk.injEq] at h ⊢
        exact ⟨h.1, by rw [h.2]⟩

theorem readChar_append {s r : Str} {x : Char} (h : readChar s = some (x, r)) (q : Str) :
    readChar (s ++ q) = some (x, r ++ q) := by
  match s, h with
  | [], h => cases h
  | c :: t, h =>
    simp only [readChar, List.cons_append] at h ⊢
    split at h
    · rename_i hc
      rw [if_pos hc]
      match t, h with
      | [], h => cases h
      | e :: t, h =>
        simp only [List.cons_append] at h ⊢
        split at h
        · rename_i he
          rw [if_pos he]
          exact readUnicode_append h q
        · rename_i he
          rw [if_neg he]
          cases hp : plainEscape e with
          | none => rw [hp] at h; cases h
          | some y => rw [hp] at h; cases h; rfl
    · rename_i hc
      rw [if_neg hc]
      split at h
      · cases h
      · rename_i hc
        rw [if_neg hc]
        cases h
        rfl

theorem readStr_append : ∀ (n : Nat) {s t r : Str}, readStr n s = some (t, r) → ∀ (q : Str) (n' : Nat), n ≤ n' →
    readStr n' (s ++ q) = some (t, r ++ q)
  | 0, _, _, _, h, _, _, _ => nomatch h
  | n + 1, [], _, _, h, _, _, _ => nomatch h
  | n + 1, c :: s, t, r, h, q, n', hn => by
    obtain ⟨m, rfl⟩ : ∃ m, n' = m + 1 := ⟨n' - 1, by omega⟩
    rw [List.cons_append]
    rw [readStr] at h ⊢
    split at h
    · rename_i hc
      rw [if_pos hc]
      cases h
      rfl
    · rename_i hc
      rw [if_neg hc]
      cases h1 : readChar (c :: s) with
      | none => rw [h1] at h; cases h
      | some p =>
        obtain ⟨x, u⟩ := p
        have e := readChar_append h1 q
        rw [List.cons_append] at e
        rw [e]
        rw [h1] at h
        simp only at h ⊢
        cases h2 : readStr n u with
        | none => rw [h2] at h; cases h
        | some p =>
          obtain ⟨y, w⟩ := p
          rw [readStr_append n h2 q m (by omega)]
          rw [h2] at h
          cases h
          rfl

theorem readStr_grow {s t r : Str} (h : readStr s.length s = some (t, r)) (q : Str) :
    readStr (s ++ q).length (s ++ q) = some (t, r ++ q) :=
  readStr_append _ h q _ (by simp)

theorem while_append {p : Char → Bool} {s : Str} (h : s.dropWhile p ≠ []) (q : Str) :
    (s ++ q).takeWhile p = s.takeWhile p ∧ (s ++ q).dropWhile p = s.dropWhile p ++ q := by
  induction s with
  | nil => exact absurd rfl h
  | cons c s ih =>
    rw [List.cons_append, List.dropWhile_cons, List.dropWhile_cons, List.takeWhile_cons, List.takeWhile_cons]
    rw [List.dropWhile_cons] at h
    split
    · rename_i hc
      rw [if_pos hc] at h
      exact ⟨by rw [(ih h).1], (ih h).2⟩
    · exact ⟨rfl, rfl⟩

theorem readNat_append {s r : Str} {k : Nat} (h : readNat s = some (k, r)) (hr : r ≠ []) (q : Str) :
    readNat (s ++ q) = some (k, r ++ q) := by
  have key : ∀ (t : Str) (k0 : Nat), (match t with
      | '.' :: _ => none
      | 'e' :: _ => none
      | 'E' :: _ => none
      | _ => some (k0, t)) = some (k, r) → (match t ++ q with
      | '.' :: _ => none
      | 'e' :: _ => none
      | 'E' :: _ => none
      | _ => some (k0, t ++ q)) = some (k, r ++ q) := by
    intro t k0 h
    cases t with
    | nil => simp only [Option.some.injEq, Prod.mk.injEq] at h; exact absurd h.2.symm hr
    | cons d t =>
      simp only [List.cons_append]
      split at h
      · cases h
      · cases h
      · cases h
      · rename_i h1 h2 h3
        split
        · rename_i heq; cases heq; exact absurd rfl (h1 _)
        · rename_i heq; cases heq; exact absurd rfl (h2 _)
        · rename_i heq; cases heq; exact absurd rfl (h3 _)
        · simp only [Option.some.injEq, Prod.mk.injEq] at h ⊢
          exact ⟨h.1, by rw [← h.2]; rfl⟩
  have tail : ∀ (t : Str) (k0 : Nat), (match t with
      | '.' :: _ => none
      | 'e' :: _ => none
      | 'E' :: _ => none
      | _ => some (k0, t)) = some (k, r) → t = r := by
    intro t k0 h
    split at h
    · cases h
    · cases h
    · cases h
    · simp only [Option.some.injEq, Prod.mk.injEq] at h; exact h.2
  match s, h with
  | [], h => cases h
  | c :: t, h =>
    simp only [readNat, List.cons_append] at h ⊢
    split at h
    · cases h
    · rename_i hd
      rw [if_neg hd]
      by_cases hc : c = '0'
      · simp only [hc, if_true] at h ⊢
        exact key _ _ h
      · simp only [hc, if_false] at h ⊢
        have := tail _ _ h
        obtain ⟨e1, e2⟩ := while_append (p := isDigit) (by rw [this]; exact hr) q
        rw [e1, e2]
        exact key _ _ h

theorem readNum_append {s r : Str} {z : Int} (h : readNum s = some (z, r)) (hr : r ≠ []) (q : Str) :
    readNum (s ++ q) = some (z, r ++ q) := by
  have hs : s ≠ [] := by rintro rfl; cases h
  unfold readNum at h
  split at h
  · rename_i t
    cases h1 : readNat t with
    | none => rw [h1] at h; cases h
    | some p =>
      rw [h1] at h
      obtain ⟨k, u⟩ := p
      simp only [Option.map_some, Option.some.injEq, Prod.mk.injEq] at h
      rw [List.cons_append, readNum, readNat_append h1 (by rw [h.2]; exact hr) q]
      simp [h.1, h.2]
  · rename_i hm
    cases h1 : readNat s with
    | none => rw [h1] at h; cases h
    | some p =>
      rw [h1] at h
      obtain ⟨k, u⟩ := p
      simp only [Option.map_some, Option.some.injEq, Prod.mk.injEq] at h
      have e := readNat_append h1 (by rw [h.2]; exact hr) q
      unfold readNum
      split
      · rename_i heq
        cases s with
        | nil => exact absurd rfl hs
        | cons c s => cases heq; exact absurd rfl (hm _)
      · rw [e]
        simp [h.1, h.2]

theorem readWord_append {w s r : Str} {v x : Val} (h : readWord w v s = some (x, r)) (q : Str) :
    readWord w v (s ++ q) = some (x, r ++ q) := by
  unfold readWord at h ⊢
  split at h
  · rename_i hw
    obtain ⟨t, ht⟩ := List.isPrefixOf_iff_prefix.mp hw
    subst ht
    have : Py.startsWith (w ++ t ++ q) w = true := List.isPrefixOf_iff_prefix.mpr ⟨t ++ q, by simp⟩
    rw [if_pos this]
    simp only [List.append_assoc, List.drop_left, Option.some.injEq, Prod.mk.injEq] at h ⊢
    exact ⟨h.1, by rw [h.2]⟩
  · cases h

/-- The value is not one which more text would change. -/
def Closed (s r : Str) : Prop := r ≠ [] ∨ ∃ c t, s = c :: t ∧ (c = '{' ∨ c = '[' ∨ c = '"')

theorem ne_of_skip {r s : Str} {c : Char} (h : skip r = c :: s) : r ≠ [] := by rintro rfl; cases h

theorem read_append : ∀ n,
    (∀ s v r, readVal n s = some (v, r) → Closed s r → ∀ q n', n ≤ n' → readVal n' (s ++ q) = some (v, r ++ q)) ∧
    (∀ s l r, readItems n s = some (l, r) → ∀ q n', n ≤ n' → readItems n' (s ++ q) = some (l, r ++ q)) ∧
    (∀ s d r, readPairs n s = some (d, r) → ∀ q n', n ≤ n' → readPairs n' (s ++ q) = some (d, r ++ q)) := by
  intro n
  induction n with
  | zero =>
    refine ⟨?_, ?_, ?_⟩
    · intro s v r h
      rw [readVal] at h
      cases h
    · intro s v r h
      rw [readItems] at h
      cases h
    · intro s v r h
      rw [readPairs] at h
      cases h
  | succ n ih =>
    obtain ⟨ihv, ihi, ihp⟩ := ih
    refine ⟨?_, ?_, ?_⟩
    · intro s v r h hcl q n' hn
      obtain ⟨m, rfl⟩ : ∃ m, n' = m + 1 := ⟨n' - 1, by omega⟩
      match s, h, hcl with
      | [], h, _ => rw [readVal] at h; cases h
      | c :: t, h, hcl =>
        rw [List.cons_append]
        rw [readVal] at h ⊢
        by_cases h1 : c = '"'
        · rw [if_pos h1] at h ⊢
          cases hs : readStr t.length t with
          | none => rw [hs] at h; cases h
          | some p =>
            obtain ⟨x, u⟩ := p
            rw [readStr_grow hs q]
            rw [hs] at h
            cases h
            rfl
        rw [if_neg h1] at h ⊢
        by_cases h2 : c = '{'
        · rw [if_pos h2] at h ⊢
          have hne : skip t ≠ [] := by
            intro e
            rw [e] at h
            cases n with
            | zero => simp [readPairs] at h
            | succ n => simp [readPairs] at h
          rw [skip_append hne]
          split at h
          · rename_i heq
            rw [heq]
            cases h
            rfl
          · rename_i hx
            cases hp : readPairs n (skip t) with
            | none => rw [hp] at h; cases h
            | some p =>
              obtain ⟨d, u⟩ := p
              have e := ihp _ _ _ hp q m (by omega)
              rw [hp] at h
              cases h
              split
              · rename_i heq
                cases hst : skip t with
                | nil => exact absurd hst hne
                | cons a b =>
                  rw [hst] at heq
                  cases heq
                  exact absurd hst (hx _)
              · rw [e]; rfl
        rw [if_neg h2] at h ⊢
        by_cases h3 : c = '['
        · rw [if_pos h3] at h ⊢
          have hne : skip t ≠ [] := by
            intro e
            rw [e] at h
            cases n with
            | zero => simp [readItems] at h
            | succ n => cases n <;> simp [readItems, readVal] at h
          rw [skip_append hne]
          split at h
          · rename_i heq
            rw [heq]
            cases h
            rfl
          · rename_i hx
            cases hp : readItems n (skip t) with
            | none => rw [hp] at h; cases h
            | some p =>
              obtain ⟨d, u⟩ := p
              have e := ihi _ _ _ hp q m (by omega)
              rw [hp] at h
              cases h
              split
              · rename_i heq
                cases hst : skip t with
                | nil => exact absurd hst hne
                | cons a b =>
                  rw [hst] at heq
                  cases heq
                  exact absurd hst (hx _)
              · rw [e]; rfl
        rw [if_neg h3] at h ⊢
        have hr : r ≠ [] := by
          rcases hcl with hcl | ⟨c', t', e, hc⟩
          · exact hcl
          · cases e
            rcases hc with hc | hc | hc
            · exact absurd hc h2
            · exact absurd hc h3
            · exact absurd hc h1
        by_cases h4 : c = 'n'
        · rw [if_pos h4] at h ⊢
          exact readWord_append h q
        rw [if_neg h4] at h ⊢
        by_cases h5 : c = 't'
        · rw [if_pos h5] at h ⊢
          exact readWord_append h q
        rw [if_neg h5] at h ⊢
        by_cases h6 : c = 'f'
        · rw [if_pos h6] at h ⊢
          exact readWord_append h q
        rw [if_neg h6] at h ⊢
        cases hz : readNum (c :: t) with
        | none => rw [hz] at h; cases h
        | some p =>
          obtain ⟨z, u⟩ := p
          rw [hz] at h
          cases h
          have e := readNum_append hz hr q
          rw [List.cons_append] at e
          rw [e]
          rfl
    · intro s l r h q n' hn
      obtain ⟨m, rfl⟩ : ∃ m, n' = m + 1 := ⟨n' - 1, by omega⟩
      rw [readItems] at h ⊢
      cases hv : readVal n s with
      | none => rw [hv] at h; cases h
      | some p =>
        obtain ⟨v, u⟩ := p
        rw [hv] at h
        simp only at h
        split at h
        · rename_i t hu
          rw [ihv _ _ _ hv (.inl (ne_of_skip hu)) q m (by omega)]
          simp only
          rw [skip_append (by rw [hu]; exact List.cons_ne_nil _ _), hu]
          simp only [List.cons_append]
          have hne : skip t ≠ [] := by
            intro e
            rw [e] at h
            cases n with
            | zero => simp [readItems] at h
            | succ n => cases n <;> simp [readItems, readVal] at h
          rw [skip_append hne]
          cases hi : readItems n (skip t) with
          | none => rw [hi] at h; cases h
          | some p =>
            obtain ⟨l', w⟩ := p
            rw [ihi _ _ _ hi q m (by omega)]
            rw [hi] at h
            cases h
            rfl
        · rename_i t hu
          rw [ihv _ _ _ hv (.inl (ne_of_skip hu)) q m (by omega)]
          simp only
          rw [skip_append (by rw [hu]; exact List.cons_ne_nil _ _), hu]
          cases h
          rfl
        · cases h
    · intro s d r h q n' hn
      obtain ⟨m, rfl⟩ : ∃ m, n' = m + 1 := ⟨n' - 1, by omega⟩
      have hs : ∃ t, s = '"' :: t := by
        rw [readPairs.eq_def] at h
        simp only at h
        split at h
        · exact ⟨_, rfl⟩
        · cases h
      obtain ⟨t, rfl⟩ := hs
      rw [List.cons_append]
      rw [readPairs] at h ⊢
      · cases hk : readStr t.length t with
        | none => rw [hk] at h; cases h
        | some p =>
          obtain ⟨k, u⟩ := p
          rw [readStr_grow hk q]
          rw [hk] at h
          simp only at h ⊢
          split at h
          · rename_i a ha
            rw [skip_append (by rw [ha]; exact List.cons_ne_nil _ _), ha]
            simp only [List.cons_append]
            have hne : skip a ≠ [] := by
              intro e
              rw [e] at h
              cases n <;> simp [readVal] at h
            rw [skip_append hne]
            cases hv : readVal n (skip a) with
            | none => rw [hv] at h; cases h
            | some p =>
              obtain ⟨v, b⟩ := p
              rw [hv] at h
              simp only at h
              split at h
              · rename_i t' hu
                rw [ihv _ _ _ hv (.inl (ne_of_skip hu)) q m (by omega)]
                simp only
                rw [skip_append (by rw [hu]; exact List.cons_ne_nil _ _), hu]
                simp only [List.cons_append]
                have hne : skip t' ≠ [] := by
                  intro e
                  rw [e] at h
                  cases n <;> simp [readPairs] at h
                rw [skip_append hne]
                cases hi : readPairs n (skip t') with
                | none => rw [hi] at h; cases h
                | some p =>
                  obtain ⟨l', w⟩ := p
                  rw [ihp _ _ _ hi q m (by omega)]
                  rw [hi] at h
                  cases h
                  rfl
              · rename_i t' hu
                rw [ihv _ _ _ hv (.inl (ne_of_skip hu)) q m (by omega)]
                simp only
                rw [skip_append (by rw [hu]; exact List.cons_ne_nil _ _), hu]
                cases h
                rfl
              · cases h
          · cases h

/-! ### The characters -/

theorem hexDigit_printable : ∀ k, k < 16 → 32 ≤ (hexDigit k).toNat ∧ (hexDigit k).toNat ≤ 126 := by decide

theorem hex4_printable (n : Nat) : ∀ c ∈ hex4 n, Printable c := by
  intro c hc
  have : ∃ k, k < 16 ∧ c = hexDigit k := by
    simp only [hex4, List.mem_cons, List.not_mem_nil, or_false] at hc
    rcases hc with h | h | h | h
    · exact ⟨_, Nat.mod_lt _ (by decide), h⟩
    · exact ⟨_, Nat.mod_lt _ (by decide), h⟩
    · exact ⟨_, Nat.mod_lt _ (by decide), h⟩
    · exact ⟨_, Nat.mod_lt _ (by decide), h⟩
  obtain ⟨k, hk, rfl⟩ := this
  exact .inr (hexDigit_printable k hk)

theorem printable_cons {c : Char} {s : Str} (hc : Printable c) (hs : ∀ x ∈ s, Printable x) : ∀ x ∈ c :: s, Printable x := by
  intro x hx
  rcases List.mem_cons.mp hx with rfl | hx
  · exact hc
  · exact hs x hx

theorem printable_append {s t : Str} (hs : ∀ x ∈ s, Printable x) (ht : ∀ x ∈ t, Printable x) : ∀ x ∈ s ++ t, Printable x := by
  intro x hx
  rcases List.mem_append.mp hx with hx | hx
  · exact hs x hx
  · exact ht x hx

instance (c : Char) : Decidable (Printable c) := by unfold Printable; exact inferInstance

theorem escape_printable (c : Char) : ∀ x ∈ escape c, Printable x := by
  unfold escape
  split
  · decide
  split
  · decide
  split
  · decide
  split
  · decide
  split
  · decide
  split
  · decide
  split
  · decide
  split
  · rename_i h
    exact printable_cons (.inr h) (by simp)
  split
  · exact printable_cons (by decide) (printable_cons (by decide) (hex4_printable _))
  · exact printable_append (printable_cons (by decide) (printable_cons (by decide) (hex4_printable _)))
      (printable_cons (by decide) (printable_cons (by decide) (hex4_printable _)))

theorem quote_printable (s : Str) : ∀ x ∈ quote s, Printable x := by
  refine printable_append (printable_cons (by decide) ?_) (printable_cons (by decide) (by simp))
  intro x hx
  obtain ⟨c, _, h⟩ := List.mem_flatMap.mp hx
  exact escape_printable c x h

theorem dec_printable (n : Nat) : ∀ x ∈ dec n, Printable x := by
  intro x hx
  have := dec_isDigit n x hx
  simp only [isDigit, Bool.and_eq_true, decide_eq_true_eq] at this
  exact .inr ⟨by omega, by omega⟩

theorem newline_printable (level : Nat) : ∀ x ∈ newline level, Printable x := by
  refine printable_cons (by decide) ?_
  intro x hx
  rw [(List.mem_replicate.mp hx).2]
  decide

mutual
theorem dump_printable (others : Nat → Str) : (v : Val) → TextVal v → ∀ level, ∀ x ∈ dump others level v, Printable x
  | .none, _, _ => by rw [dump]; decide
  | .bool true, _, _ => by rw [dump]; decide
  | .bool false, _, _ => by rw [dump]; decide
  | .num (.ofNat n), _, _ => by rw [dump, intText]; exact dec_printable n
  | .num (.negSucc n), _, _ => by rw [dump, intText]; exact printable_cons (by decide) (dec_printable _)
  | .str s, _, _ => by rw [dump]; exact quote_printable s
  | .src none p, _, level => by
    rw [dump]
    exact printable_append (printable_append (printable_append (printable_append (printable_append
      (printable_cons (by decide) (newline_printable _)) (by decide)) (newline_printable _)) (quote_printable p))
      (newline_printable _)) (by decide)
  | .src (some l) p, _, level => by
    rw [dump]
    exact printable_append (printable_append (printable_append (printable_append (printable_append (printable_append
      (printable_cons (by decide) (newline_printable _)) (quote_printable l)) (by decide)) (newline_printable _))
      (quote_printable p)) (newline_printable _)) (by decide)
  | .list l, h, level => by
    have hl : ∀ x ∈ l, TextVal x := by cases h with | list _ h => exact h
    rw [dump]
    split
    · decide
    · exact printable_append (printable_append (printable_cons (by decide)
        (items_printable others l hl (level + 1) [] (by simp))) (newline_printable _)) (by decide)
  | .dict d, h, level => by
    have hl : ∀ x ∈ d, TextVal x.2 := by cases h with | dict _ h => exact h
    rw [dump]
    split
    · decide
    · exact printable_append (printable_append (printable_cons (by decide)
        (pairs_printable others d hl (level + 1) [] (by simp))) (newline_printable _)) (by decide)
  | .other _ _ _, h, _ => nomatch h
theorem items_printable (others : Nat → Str) : (l : List Val) → (∀ v ∈ l, TextVal v) → ∀ level sep,
    (∀ x ∈ sep, Printable x) → ∀ x ∈ dumpItems others level sep l, Printable x
  | [], _, _, _, _ => by rw [dumpItems]; simp
  | v :: l, h, level, sep, hs => by
    rw [dumpItems]
    exact printable_append (printable_append (printable_append hs (newline_printable _))
      (dump_printable others v (h v List.mem_cons_self) level))
      (items_printable others l (fun y hy => h y (List.mem_cons_of_mem _ hy)) level [','] (by decide))
theorem pairs_printable (others : Nat → Str) : (d : List (Str × Val)) → (∀ e ∈ d, TextVal e.2) → ∀ level sep,
    (∀ x ∈ sep, Printable x) → ∀ x ∈ dumpPairs others level sep d, Printable x
  | [], _, _, _, _ => by rw [dumpPairs]; simp
  | (k, v) :: d, h, level, sep, hs => by
    rw [dumpPairs]
    exact printable_append (printable_append (printable_append (printable_append (printable_append hs
      (newline_printable _)) (quote_printable k)) (by decide)) (dump_printable others v (h (k, v) List.mem_cons_self) level))
      (pairs_printable others d (fun y hy => h y (List.mem_cons_of_mem _ hy)) level [','] (by decide))
end

/-! ### Values without sources -/

mutual
theorem written_json : (v : Val) → JsonVal v → Disk.written v = v
  | .none, _ => rfl
  | .bool _, _ => rfl
  | .num _, _ => rfl
  | .str _, _ => rfl
  | .src _ _, h => nomatch h
  | .list l, h => by
    rw [Disk.written, writtenList_json l (by cases h with | list _ h => exact h)]
  | .dict d, h => by
    rw [Disk.written, writtenDict_json d (by cases h with | dict _ h => exact h)]
  | .other _ _ _, h => nomatch h
theorem writtenList_json : (l : List Val) → (∀ v ∈ l, JsonVal v) → Disk.writtenList l = l
  | [], _ => rfl
  | v :: l, h => by
    rw [Disk.writtenList, written_json v (h v List.mem_cons_self),
      writtenList_json l (fun y hy => h y (List.mem_cons_of_mem _ hy))]
theorem writtenDict_json : (d : List (Str × Val)) → (∀ e ∈ d, JsonVal e.2) → Disk.writtenDict d = d
  | [], _ => rfl
  | (k, v) :: d, h => by
    rw [Disk.writtenDict, written_json v (h (k, v) List.mem_cons_self),
      writtenDict_json d (fun y hy => h y (List.mem_cons_of_mem _ hy))]
end

mutual
theorem textVal_json : (v : Val) → JsonVal v → TextVal v
  | .none, _ => .none
  | .bool b, _ => .bool b
  | .num n, _ => .num n
  | .str s, _ => .str s
  | .src _ _, h => nomatch h
  | .list l, h => .list l (textVals_json l (by cases h with | list _ h => exact h))
  | .dict d, h => .dict d (textPairs_json d (by cases h with | dict _ h => exact h))
  | .other _ _ _, h => nomatch h
theorem textVals_json : (l : List Val) → (∀ v ∈ l, JsonVal v) → ∀ v ∈ l, TextVal v
  | [], _ => by simp
  | v :: l, h => by
    intro x hx
    rcases List.mem_cons.mp hx with e | hx
    · rw [e]; exact textVal_json v (h v List.mem_cons_self)
    · exact textVals_json l (fun y hy => h y (List.mem_cons_of_mem _ hy)) x hx
theorem textPairs_json : (d : List (Str × Val)) → (∀ e ∈ d, JsonVal e.2) → ∀ e ∈ d, TextVal e.2
  | [], _ => by simp
  | (k, v) :: d, h => by
    intro x hx
    rcases List.mem_cons.mp hx with e | hx
    · rw [e]; exact textVal_json v (h (k, v) List.mem_cons_self)
    · exact textPairs_json d (fun y hy => h y (List.mem_cons_of_mem _ hy)) x hx
end

/-- No part of the text of a dict is read but the whole. -/
theorem loadText_prefix (others : Nat → Str) {d : List (Str × Val)} (hd : TextVal (.dict d)) {p q : Str} (hq : q ≠ [])
    (h : p ++ q = dump others 0 (.dict d)) : loadText p = none := by
  obtain ⟨t, ht⟩ : ∃ t, dump others 0 (.dict d) = '{' :: t := by
    rw [dump]
    split
    · exact ⟨_, rfl⟩
    · exact ⟨_, rfl⟩
  cases p with
  | nil => rfl
  | cons c p =>
    have hc : c = '{' := by rw [ht] at h; exact (List.cons.inj h).1
    subst hc
    have hs : skip ('{' :: p) = '{' :: p := skip_none (by decide)
    rw [loadText, hs]
    cases hr : readVal (('{' :: p).length + 1) ('{' :: p) with
    | none => rfl
    | some x =>
      exfalso
      obtain ⟨v, r⟩ := x
      have h1 := (read_append _).1 _ _ _ hr (.inr ⟨'{', p, rfl, .inl rfl⟩) q
        ((dump others 0 (.dict d)).length + 1) (by rw [← h]; simp)
      have h2 := readVal_dump others _ hd ((dump others 0 (.dict d)).length + 1) 0 []
        (Nat.le_succ_of_le (need_le others _ hd 0)) (fun _ h => nomatch h)
      rw [h] at h1
      rw [List.append_nil, h1] at h2
      simp only [Option.some.injEq, Prod.mk.injEq, List.append_eq_nil_iff] at h2
      exact hq h2.2.2

/-! ### Objects -/

mutual
/-- Objects the model does not look into, replaced by `None`. -/
def plain : Val → Val
  | .list l => .list (plainList l)
  | .dict d => .dict (plainDict d)
  | .other _ _ _ => .none
  | v => v
def plainList : List Val → List Val
  | [] => []
  | v :: l => plain v :: plainList l
def plainDict : List (Str × Val) → List (Str × Val)
  | [] => []
  | (k, v) :: d => (k, plain v) :: plainDict d
end

mutual
theorem textVal_plain : (v : Val) → TextVal (plain v)
  | .none => .none
  | .bool b => .bool b
  | .num n => .num n
  | .str s => .str s
  | .src l p => .src l p
  | .list l => .list _ (textVals_plain l)
  | .dict d => .dict _ (textPairs_plain d)
  | .other _ _ _ => .none
theorem textVals_plain : (l : List Val) → ∀ v ∈ plainList l, TextVal v
  | [] => by simp [plainList]
  | v :: l => by
    intro x hx
    rcases List.mem_cons.mp hx with e | hx
    · rw [e]; exact textVal_plain v
    · exact textVals_plain l x hx
theorem textPairs_plain : (d : List (Str × Val)) → ∀ e ∈ plainDict d, TextVal e.2
  | [] => by simp [plainDict]
  | (k, v) :: d => by
    intro x hx
    rcases List.mem_cons.mp hx with e | hx
    · rw [e]; exact textVal_plain v
    · exact textPairs_plain d x hx
end

theorem isEmpty_plainList (l : List Val) : (plainList l).isEmpty = l.isEmpty := by cases l <;> rfl

theorem isEmpty_plainDict (d : List (Str × Val)) : (plainDict d).isEmpty = d.isEmpty := by cases d <;> rfl

mutual
theorem dump_plain : (v : Val) → ∀ level, dump (fun _ => "null".toList) level (plain v) = dump (fun _ => "null".toList) level v
  | .none, _ => rfl
  | .bool _, _ => rfl
  | .num _, _ => rfl
  | .str _, _ => rfl
  | .src _ _, _ => rfl
  | .list l, level => by
    rw [plain, dump, dump, items_plain l (level + 1) [], isEmpty_plainList]
  | .dict d, level => by
    rw [plain, dump, dump, pairs_plain d (level + 1) [], isEmpty_plainDict]
  | .other _ _ _, _ => rfl
theorem items_plain : (l : List Val) → ∀ level sep,
    dumpItems (fun _ => "null".toList) level sep (plainList l) = dumpItems (fun _ => "null".toList) level sep l
  | [], _, _ => rfl
  | v :: l, level, sep => by
    rw [plainList, dumpItems, dumpItems, dump_plain v level, items_plain l level [',']]
theorem pairs_plain : (d : List (Str × Val)) → ∀ level sep,
    dumpPairs (fun _ => "null".toList) level sep (plainDict d) = dumpPairs (fun _ => "null".toList) level sep d
  | [], _, _ => rfl
  | (k, v) :: d, level, sep => by
    rw [plainDict, dumpPairs, dumpPairs, dump_plain v level, pairs_plain d level [',']]
end

mutual
/-- How many objects there are in a value. -/
def count : Val → Nat
  | .list l => countItems l
  | .dict d => countPairs d
  | .other _ _ _ => 1
  | _ => 0
def countItems : List Val → Nat
  | [] => 0
  | v :: l => count v + countItems l
def countPairs : List (Str × Val) → Nat
  | [] => 0
  | (_, v) :: d => count v + countPairs d
end

theorem countItems_mem {l : List Val} {v : Val} (h : v ∈ l) : count v ≤ countItems l := by
  induction l with
  | nil => cases h
  | cons x l ih =>
    rw [countItems]
    rcases List.mem_cons.mp h with rfl | h
    · omega
    · have := ih h; omega

theorem countPairs_mem {d : List (Str × Val)} {e : Str × Val} (h : e ∈ d) : count e.2 ≤ countPairs d := by
  induction d with
  | nil => cases h
  | cons x d ih =>
    obtain ⟨k, v⟩ := x
    rw [countPairs]
    rcases List.mem_cons.mp h with rfl | h
    · show count v ≤ _; omega
    · have := ih h; omega

theorem count_pos {v : Val} (h : HoldsObject v) : 0 < count v := by
  induction h with
  | other => exact Nat.one_pos
  | list l v hv _ ih => rw [count]; exact Nat.lt_of_lt_of_le ih (countItems_mem hv)
  | dict d e he _ ih => rw [count]; exact Nat.lt_of_lt_of_le ih (countPairs_mem he)

mutual
theorem dump_length : (v : Val) → ∀ level,
    (dump (fun _ => []) level v).length + 4 * count v = (dump (fun _ => "null".toList) level v).length
  | .none, _ => rfl
  | .bool true, _ => rfl
  | .bool false, _ => rfl
  | .num z, _ => by simp [dump, count]
  | .str _, _ => by simp [dump, count]
  | .src none _, _ => by simp [dump, count]
  | .src (some _) _, _ => by simp [dump, count]
  | .list l, level => by
    have h := items_length l (level + 1) []
    rw [dump, dump, count]
    split
    · rename_i he
      cases l with
      | nil => rfl
      | cons => cases he
    · simp only [List.cons_append, List.length_cons, List.length_append] at h ⊢
      omega
  | .dict d, level => by
    have h := pairs_length d (level + 1) []
    rw [dump, dump, count]
    split
    · rename_i he
      cases d with
      | nil => rfl
      | cons => cases he
    · simp only [List.cons_append, List.length_cons, List.length_append] at h ⊢
      omega
  | .other _ _ _, _ => rfl
theorem items_length : (l : List Val) → ∀ level sep,
    (dumpItems (fun _ => []) level sep l).length + 4 * countItems l = (dumpItems (fun _ => "null".toList) level sep l).length
  | [], _, _ => rfl
  | v :: l, level, sep => by
    have h1 := dump_length v level
    have h2 := items_length l level [',']
    rw [dumpItems, dumpItems, countItems]
    simp only [List.length_append] at h1 h2 ⊢
    omega
theorem pairs_length : (d : List (Str × Val)) → ∀ level sep,
    (dumpPairs (fun _ => []) level sep d).length + 4 * countPairs d = (dumpPairs (fun _ => "null".toList) level sep d).length
  | [], _, _ => rfl
  | (k, v) :: d, level, sep => by
    have h1 := dump_length v level
    have h2 := pairs_length d level [',']
    rw [dumpPairs, dumpPairs, countPairs]
    simp only [List.length_append] at h1 h2 ⊢
    omega
end

end Nxt.JsonText
