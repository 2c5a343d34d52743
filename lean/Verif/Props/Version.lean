import Verif.Lemmas.Version
/-!
# Properties C26 and C27: file versions and the converter loop
-/
namespace Nxt.Props
open Version Spec

/-! ## C26 -/

/-- C26: a version text `M.m` or `M.m.anything` with `M`, `m` decimal: the file is refused as newer
exactly when `1.17` comes before `M.m`, converted exactly when `M.m` comes before `1.17`, and used as it
is exactly when they are equal. -/
theorem C26_version_gate (a b r : Str) (M m : Nat) (ha : Decimal a M) (hb : Decimal b m)
    (hr : r = [] ∨ ∃ t, r = '.' :: t) :
    let g := gate (some (a ++ '.' :: (b ++ r)))
    (g = .tooNew ↔ Before 1 17 M m) ∧ (g = .convert ↔ Before M m 1 17) ∧
    (g = .asIs ↔ (M = 1 ∧ m = 17)) := by
  have hg : gate (some (a ++ '.' :: (b ++ r))) =
      if (M : Int) > 1 ∨ ((M : Int) = 1 ∧ (m : Int) > 17) then .tooNew
      else if (M : Int) = 0 ∨ (m : Int) < 17 then .convert else .asIs := by
    unfold gate
    simp only
    rw [if_neg (by simp)]
    unfold gateText
    rw [if_neg (by simp [Py.count, List.count_append]), majorMinor_decimal ha hb hr]
    rfl
  simp only [hg]
  unfold Before
  by_cases h1 : (M : Int) > 1 ∨ ((M : Int) = 1 ∧ (m : Int) > 17)
  · rw [if_pos h1]
    refine ⟨⟨fun _ => by omega, fun _ => rfl⟩, ⟨fun h => (nomatch h), fun h => by omega⟩,
      ⟨fun h => (nomatch h), fun h => by omega⟩⟩
  · rw [if_neg h1]
    by_cases h2 : (M : Int) = 0 ∨ (m : Int) < 17
    · rw [if_pos h2]
      refine ⟨⟨fun h => (nomatch h), fun h => by omega⟩, ⟨fun _ => by omega, fun _ => rfl⟩,
        ⟨fun h => (nomatch h), fun h => by omega⟩⟩
    · rw [if_neg h2]
      refine ⟨⟨fun h => (nomatch h), fun h => by omega⟩, ⟨fun h => (nomatch h), fun h => by omega⟩,
        ⟨fun _ => by omega, fun _ => rfl⟩⟩

/-- C26: a file without version, or with an empty one, is taken as current. -/
theorem C26_no_version : gate none = .asIs ∧ gate (some []) = .asIs := by decide +kernel

/-- C26: a non-empty version text without a dot is refused. -/
theorem C26_no_dot (v : Str) (hv : v ≠ []) (h : '.' ∉ v) : gate (some v) = .invalid := by
  unfold gate
  simp only
  rw [if_neg (by cases v <;> simp_all)]
  unfold gateText
  rw [if_pos (by simpa [Py.count, List.count_eq_zero] using h)]

/-- C26: every version text whose first two dot separated parts are not both integers is refused. -/
theorem C26_not_integers (a b r : Str) (ha : '.' ∉ a) (hb : '.' ∉ b) (hr : r = [] ∨ ∃ t, r = '.' :: t)
    (h : parseInt a = none ∨ parseInt b = none) :
    gate (some (a ++ '.' :: (b ++ r))) = .unparsable := by
  unfold gate
  simp only
  rw [if_neg (by simp)]
  unfold gateText
  rw [if_neg (by simp [Py.count, List.count_append])]
  have : majorMinor (a ++ '.' :: (b ++ r)) = none := by
    unfold majorMinor
    rw [Py.split_append_sep ha]
    rcases hr with rfl | ⟨t, rfl⟩
    · rw [List.append_nil, Py.split_of_not_mem hb]
      rcases h with h | h
      · simp only [h]
      · simp only [h]; cases parseInt a <;> rfl
    · rw [Py.split_append_sep hb]
      rcases h with h | h
      · simp only [h]
      · simp only [h]; cases parseInt a <;> rfl
  rw [this]

/-- C26 fails beyond decimal texts: a negative major version is older than every release, yet the file
is used as it is, unconverted. -/
theorem C26_negative_major_violation :
    majorMinor "-1.20".toList = some (-1, 20) ∧ Before (-1) 20 1 17 ∧ gate (some "-1.20".toList) = .asIs := by
  refine ⟨by decide +kernel, Or.inl (by decide), by decide +kernel⟩

/-- A case of `C26_version_gate`: `1.9.3` is converted. -/
example : Decimal ['1'] 1 ∧ Decimal ['9'] 9 ∧ Before 1 9 1 17 ∧ gate (some "1.9.3".toList) = .convert :=
  ⟨Decimal.one '1' (by decide), Decimal.one '9' (by decide), Or.inr (by decide), by decide +kernel⟩

namespace Ints

theorem space_iff (c : Char) : isSpace c = true ↔ c ∈ blankChars := by
  have key : ∀ k : Char, c = k ↔ c.toNat = k.toNat := fun k =>
    ⟨fun h => by rw [h], fun h => Char.ext (UInt32.toNat_inj.1 h)⟩
  simp only [blankChars, List.mem_cons, List.not_mem_nil, or_false, key]
  simp only [show '\t'.toNat = 9 from rfl, show '\n'.toNat = 10 from rfl, show '\x0b'.toNat = 11 from rfl,
    show '\x0c'.toNat = 12 from rfl, show '\r'.toNat = 13 from rfl, show '\x1c'.toNat = 28 from rfl,
    show '\x1d'.toNat = 29 from rfl, show '\x1e'.toNat = 30 from rfl, show '\x1f'.toNat = 31 from rfl,
    show ' '.toNat = 32 from rfl, show '\u0085'.toNat = 133 from rfl, show '\u00a0'.toNat = 160 from rfl]
  simp only [isSpace, Bool.or_eq_true, Bool.and_eq_true, decide_eq_true_eq]
  omega

theorem digit_iff (c : Char) : isDigit c = true ↔ '0' ≤ c ∧ c ≤ '9' := by
  simp only [isDigit, Bool.and_eq_true, decide_eq_true_eq]
  exact Iff.rfl

theorem decimal_of_digits (t : Str) (hne : t ≠ []) (h : ∀ c ∈ t, '0' ≤ c ∧ c ≤ '9') : Decimal t (digitsVal t) := by
  have : ∃ n, Decimal t n := by
    have main : ∀ r : Str, r.reverse ≠ [] → (∀ c ∈ r.reverse, '0' ≤ c ∧ c ≤ '9') → ∃ n, Decimal r.reverse n := by
      intro r
      induction r with
      | nil => exact fun h => absurd rfl h
      | cons a l ih =>
        intro _ h
        rw [List.reverse_cons] at h ⊢
        have ha := h a (by simp)
        by_cases hl : l.reverse = []
        · rw [hl]; exact ⟨_, Decimal.one a ha⟩
        · obtain ⟨n, hn⟩ := ih hl (fun c hc => h c (List.mem_append_left _ hc))
          exact ⟨_, Decimal.snoc _ n a ha hn⟩
    have := main t.reverse
    rw [List.reverse_reverse] at this
    exact this hne h
  obtain ⟨n, hn⟩ := this
  rw [decimal_val hn]
  exact hn

theorem noScore {g : Str} (h : ∀ c ∈ g, '0' ≤ c ∧ c ≤ '9') : '_' ∉ g := fun hm =>
  absurd (h _ hm) (by decide)

theorem parseNat_iff (s : Str) (n : Nat) : parseNat s = some n ↔ ∃ t, IntDigits s t ∧ Decimal t n := by
  constructor
  · intro h
    unfold parseNat at h
    split at h
    · rename_i hall
      rw [List.all_eq_true] at hall
      have hj := Py.join_split '_' s
      have hne := Py.split_ne_nil '_' s
      generalize Py.split '_' s = gs at hall h hj hne
      have hg : ∀ g ∈ gs, g ≠ [] ∧ ∀ c ∈ g, '0' ≤ c ∧ c ≤ '9' := by
        intro g hgm
        have := hall g hgm
        rw [Bool.and_eq_true, List.all_eq_true] at this
        exact ⟨by rintro rfl; simp at this, fun c hc => (digit_iff c).1 (this.2 c hc)⟩
      have hd : IntDigits s gs.flatten := by
        rw [← hj]
        clear hall h hj
        induction gs with
        | nil => exact absurd rfl hne
        | cons g gs ih =>
          obtain ⟨h1, h2⟩ := hg g (by simp)
          cases gs with
          | nil => simpa [Py.join] using IntDigits.last h1 h2
          | cons g' gs' =>
            have := IntDigits.group h1 h2 (ih (by simp) (fun x hx => hg x (by simp [hx])))
            rw [List.flatten_cons]
            simpa [Py.join] using this
      cases h
      refine ⟨_, hd, decimal_of_digits _ ?_ ?_⟩
      · cases gs with
        | nil => exact absurd rfl hne
        | cons g gs =>
          have := (hg g (by simp)).1
          simp [this]
      · intro c hc
        obtain ⟨g, h1, h2⟩ := List.mem_flatten.1 hc
        exact (hg g h1).2 c h2
    · cases h
  · rintro ⟨t, hd, hn⟩
    have key : (∀ g ∈ Py.split '_' s, g ≠ [] ∧ ∀ c ∈ g, '0' ≤ c ∧ c ≤ '9') ∧ (Py.split '_' s).flatten = t := by
      clear hn
      induction hd with
      | last h1 h2 =>
        rw [Py.split_of_not_mem (noScore h2)]
        refine ⟨fun g hg => ?_, by simp⟩
        rw [List.mem_singleton.1 hg]
        exact ⟨h1, h2⟩
      | group h1 h2 _ ih =>
        rw [Py.split_append_sep (noScore h2)]
        refine ⟨fun g hg => ?_, by rw [List.flatten_cons, ih.2]⟩
        rcases List.mem_cons.1 hg with rfl | hg
        · exact ⟨h1, h2⟩
        · exact ih.1 g hg
    unfold parseNat
    rw [if_pos, key.2, decimal_val hn]
    rw [List.all_eq_true]
    intro g hg
    obtain ⟨h1, h2⟩ := key.1 g hg
    rw [Bool.and_eq_true, List.all_eq_true]
    refine ⟨by cases g <;> simp_all, fun c hc => (digit_iff c).2 (h2 c hc)⟩

theorem intDigits_ends {b t : Str} (h : IntDigits b t) : b ≠ [] ∧ (∀ c, b.head? = some c → '0' ≤ c ∧ c ≤ '9') ∧
    ∀ c, b.getLast? = some c → '0' ≤ c ∧ c ≤ '9' := by
  induction h with
  | last h1 h2 =>
    exact ⟨h1, fun c hc => h2 c (List.mem_of_mem_head? hc), fun c hc => h2 c (List.mem_of_getLast? hc)⟩
  | @group g r t h1 h2 _ ih =>
    refine ⟨by simp, fun c hc => ?_, fun c hc => ?_⟩
    · cases g with
      | nil => exact absurd rfl h1
      | cons x g => simp at hc; subst hc; exact h2 x (by simp)
    · refine ih.2.2 c ?_
      rw [List.getLast?_append] at hc
      cases r with
      | nil => exact absurd rfl ih.1
      | cons x r =>
        rw [List.getLast?_cons_cons] at hc
        rw [← hc]
        cases hg : (x :: r).getLast? with
        | none => simp at hg
        | some y => rfl

theorem dropWhile_all {l m : Str} (h : ∀ c ∈ l, isSpace c = true) (hm : ∀ c, m.head? = some c → isSpace c = false) :
    (l ++ m).dropWhile isSpace = m := by
  induction l with
  | nil =>
    cases m with
    | nil => rfl
    | cons c m =>
      rw [List.nil_append, List.dropWhile_cons, if_neg]
      rw [hm c rfl]; simp
  | cons c l ih =>
    rw [List.cons_append, List.dropWhile_cons, if_pos (h c (by simp))]
    exact ih (fun c hc => h c (by simp [hc]))

theorem strip_around {pre body post : Str} (h : ∀ c ∈ pre ++ post, c ∈ blankChars)
    (h1 : ∀ c, body.head? = some c → isSpace c = false) (h2 : ∀ c, body.getLast? = some c → isSpace c = false) (hb : body ≠ []) :
    strip (pre ++ body ++ post) = body := by
  unfold strip
  rw [List.append_assoc, dropWhile_all (fun c hc => (space_iff c).2 (h c (by simp [hc]))), List.reverse_append,
    dropWhile_all (fun c hc => (space_iff c).2 (h c (by simp at hc; simp [hc]))), List.reverse_reverse]
  · intro c hc
    rw [List.head?_reverse] at hc
    exact h2 c hc
  · intro c hc
    cases body with
    | nil => exact absurd rfl hb
    | cons x b => exact h1 c hc

theorem strip_split (s : Str) : ∃ pre post, s = pre ++ strip s ++ post ∧ ∀ c ∈ pre ++ post, c ∈ blankChars := by
  refine ⟨s.takeWhile isSpace, ((s.dropWhile isSpace).reverse.takeWhile isSpace).reverse, ?_, fun c hc => ?_⟩
  · unfold strip
    rw [List.append_assoc, ← List.reverse_append, List.takeWhile_append_dropWhile, List.reverse_reverse,
      List.takeWhile_append_dropWhile]
  · rw [← space_iff]
    rcases List.mem_append.1 hc with hc | hc
    · exact (List.all_eq_true.1 List.all_takeWhile) c hc
    · exact (List.all_eq_true.1 List.all_takeWhile) c (List.mem_reverse.1 hc)

end Ints

/-- C26: the texts taken as integers are exactly those Python takes. -/
theorem C26_integers (s : Str) (z : Int) : parseInt s = some z ↔ IntText s z := by
  have sp : ∀ c : Char, '0' ≤ c ∧ c ≤ '9' → isSpace c = false := by
    intro c hc
    have h1 : 48 ≤ c.toNat := hc.1
    have h2 : c.toNat ≤ 57 := hc.2
    rw [← Bool.not_eq_true]
    simp only [isSpace, Bool.or_eq_true, Bool.and_eq_true, decide_eq_true_eq]
    omega
  constructor
  · intro h
    obtain ⟨pre, post, hs, hb⟩ := Ints.strip_split s
    unfold parseInt at h
    split at h
    · rename_i r he
      obtain ⟨n, hn, rfl⟩ := Option.map_eq_some_iff.1 h
      obtain ⟨t, h1, h2⟩ := (Ints.parseNat_iff r n).1 hn
      exact ⟨pre, r, post, t, n, hb, h1, h2, .inr (.inr ⟨by rw [← he]; exact hs, rfl⟩)⟩
    · rename_i r he
      obtain ⟨n, hn, rfl⟩ := Option.map_eq_some_iff.1 h
      obtain ⟨t, h1, h2⟩ := (Ints.parseNat_iff r n).1 hn
      exact ⟨pre, r, post, t, n, hb, h1, h2, .inr (.inl ⟨by rw [← he]; exact hs, rfl⟩)⟩
    · obtain ⟨n, hn, rfl⟩ := Option.map_eq_some_iff.1 h
      obtain ⟨t, h1, h2⟩ := (Ints.parseNat_iff _ n).1 hn
      exact ⟨pre, _, post, t, n, hb, h1, h2, .inl ⟨hs, rfl⟩⟩
  · rintro ⟨pre, body, post, t, n, hb, hd, hn, h⟩
    obtain ⟨e1, e2, e3⟩ := Ints.intDigits_ends hd
    have hp := (Ints.parseNat_iff body n).2 ⟨t, hd, hn⟩
    have hlast : ∀ x c, (x :: body).getLast? = some c → isSpace c = false := by
      intro x c hc
      cases body with
      | nil => exact absurd rfl e1
      | cons y b => rw [List.getLast?_cons_cons] at hc; exact sp c (e3 c hc)
    unfold parseInt
    rcases h with ⟨rfl, rfl⟩ | ⟨rfl, rfl⟩ | ⟨rfl, rfl⟩
    · rw [Ints.strip_around hb (fun c hc => sp c (e2 c hc)) (fun c hc => sp c (e3 c hc)) e1]
      split
      · exact absurd (e2 '-' rfl) (by decide)
      · exact absurd (e2 '+' rfl) (by decide)
      · rw [hp]; rfl
    · rw [Ints.strip_around hb (fun c hc => by cases hc; decide) (hlast '+') (by simp)]
      simp only [hp, Option.map_some]
    · rw [Ints.strip_around hb (fun c hc => by cases hc; decide) (hlast '-') (by simp)]
      simp only [hp, Option.map_some]

/-- A case of `C26_integers`. -/
example : IntText " -1_20\n".toList (-120) :=
  ⟨[' '], "1_20".toList, ['\n'], "120".toList, 120, by decide,
    IntDigits.group (g := ['1']) (r := "20".toList) (t := "20".toList) (by decide) (by decide) (IntDigits.last (by decide) (by decide)),
    Decimal.snoc "12".toList 12 '0' (by decide) (Decimal.snoc ['1'] 1 '2' (by decide) (Decimal.one '1' (by decide))),
    .inr (.inr ⟨rfl, rfl⟩)⟩

/-! ## C27 -/

/-- C27: from a version at most the current one the loop stops, and has applied exactly the converters
whose version is at least the file's, each once, in increasing order. -/
theorem C27_converters_in_order {D : Type} (table : Table D) (hs : (table.map Prod.fst).Pairwise (· < ·))
    (hk : ∀ e ∈ table, e.1 ≤ GRAPH_MINOR) (v : Int) (hv : v ≤ GRAPH_MINOR) (d : D) :
    ∃ fuel0, ∀ fuel, fuel0 ≤ fuel → convLoop table fuel v d =
      match applyAll ((table.filter (fun e => v ≤ e.1)).map Prod.snd) d with
      | some d' => .ok d'
      | none => .fail :=
  ⟨(GRAPH_MINOR - v).toNat + 1, fun fuel hf => convLoop_spec table hs hk fuel v hv (by omega) d⟩

/-- C27 violated: from a newer version the loop never stops, whatever the converters do. -/
theorem C27_newer_diverges_violation {D : Type} (table : Table D) (hk : ∀ e ∈ table, e.1 ≤ GRAPH_MINOR)
    (v : Int) (hv : GRAPH_MINOR < v) (d : D) (fuel : Nat) : convLoop table fuel v d = .outOfFuel :=
  convLoop_above table hk fuel v hv d

/-- C27: the whole converter on a file of version `M.m`, `M ≥ 1`, which is not newer: the converters
from `m` on. -/
theorem C27_convert_release {D : Type} (version : D → Option Str) (pre : D → Option D) (table : Table D)
    (hs : (table.map Prod.fst).Pairwise (· < ·)) (hk : ∀ e ∈ table, e.1 ≤ GRAPH_MINOR) (d : D)
    (a b r : Str) (M m : Nat) (ha : Decimal a M) (hb : Decimal b m) (hr : r = [] ∨ ∃ t, r = '.' :: t)
    (hver : version d = some (a ++ '.' :: (b ++ r))) (hM : M ≠ 0) (hm : (m : Int) ≤ GRAPH_MINOR) :
    ∃ fuel0, ∀ fuel, fuel0 ≤ fuel → convertFile version pre table fuel d =
      match applyAll ((table.filter (fun e => (m : Int) ≤ e.1)).map Prod.snd) d with
      | some d' => .ok d'
      | none => .fail := by
  obtain ⟨fuel0, h⟩ := C27_converters_in_order table hs hk (m : Int) hm d
  refine ⟨fuel0, fun fuel hf => ?_⟩
  have hd : determineVersion (version d) = .minor m := by
    rw [hver]
    unfold determineVersion
    rw [Option.getD_some, majorMinor_decimal ha hb hr]
    simp only
    rw [if_neg (by omega), if_neg (by omega)]
  unfold convertFile
  rw [hd]
  exact h fuel hf

/-- C27: a pre-release file `0.m` with `m ≥ 39`, when the pre-release converter leaves version `1.0.0`:
that converter, then every other one. -/
theorem C27_convert_pre_release {D : Type} (version : D → Option Str) (pre : D → Option D) (table : Table D)
    (hs : (table.map Prod.fst).Pairwise (· < ·)) (hk : ∀ e ∈ table, 0 ≤ e.1 ∧ e.1 ≤ GRAPH_MINOR) (d : D)
    (a b r : Str) (m : Nat) (ha : Decimal a 0) (hb : Decimal b m) (hr : r = [] ∨ ∃ t, r = '.' :: t)
    (hver : version d = some (a ++ '.' :: (b ++ r))) (hm : 39 ≤ m)
    (hpre : ∀ d', pre d = some d' → version d' = some "1.0.0".toList) :
    ∃ fuel0, ∀ fuel, fuel0 ≤ fuel → convertFile version pre table fuel d =
      match applyAll (pre :: table.map Prod.snd) d with
      | some d' => .ok d'
      | none => .fail := by
  have hd : determineVersion (version d) = .preRelease := by
    rw [hver]
    unfold determineVersion
    rw [Option.getD_some, majorMinor_decimal ha hb hr]
    simp only
    rw [if_pos (by omega)]
  cases hp : pre d with
  | none =>
    refine ⟨0, fun fuel _ => ?_⟩
    unfold convertFile
    rw [hd]
    simp only [hp, applyAll, Option.bind_none]
  | some d' =>
    obtain ⟨fuel0, h⟩ := C27_converters_in_order table hs (fun e he => (hk e he).2) 0 (by decide) d'
    refine ⟨fuel0, fun fuel hf => ?_⟩
    unfold convertFile
    rw [hd]
    have h0 : determineVersion (version d') = .minor 0 := by
      rw [hpre d' hp]; decide +kernel
    simp only [hp, applyAll, Option.bind_some, h0]
    rw [h fuel hf, List.filter_eq_self.2 (by intro e he; simpa using (hk e he).1)]

/-- C27: files older than 0.39 are refused. -/
theorem C27_too_old {D : Type} (version : D → Option Str) (pre : D → Option D) (table : Table D) (d : D)
    (a b r : Str) (m : Nat) (ha : Decimal a 0) (hb : Decimal b m) (hr : r = [] ∨ ∃ t, r = '.' :: t)
    (hver : version d = some (a ++ '.' :: (b ++ r))) (hm : m < 39) (fuel : Nat) :
    convertFile version pre table fuel d = .fail := by
  unfold convertFile
  have : determineVersion (version d) = .tooOld := by
    rw [hver]
    unfold determineVersion
    rw [Option.getD_some, majorMinor_decimal ha hb hr]
    simp only
    rw [if_neg (by omega), if_pos (by omega)]
  rw [this]

/-- C27: whatever `load_file_data` hands to the converter is converted in finitely many rounds, for any
version text and any converters with keys up to the current minor version, when the pre-release
converter leaves version `1.0.0`. -/
theorem C27_gate_terminates {D : Type} (version : D → Option Str) (pre : D → Option D) (table : Table D)
    (hs : (table.map Prod.fst).Pairwise (· < ·)) (hk : ∀ e ∈ table, e.1 ≤ GRAPH_MINOR) (d : D)
    (hgate : gate (version d) = .convert)
    (hpre : ∀ d', pre d = some d' → version d' = some "1.0.0".toList) :
    ∃ fuel0, ∀ fuel, fuel0 ≤ fuel → ∃ r, convertFile version pre table fuel d = r ∧ r ≠ .outOfFuel := by
  have main : ∀ n : Int, n ≤ GRAPH_MINOR → ∀ d : D, ∃ fuel0, ∀ fuel, fuel0 ≤ fuel →
      convLoop table fuel n d ≠ .outOfFuel := by
    intro n hn d
    obtain ⟨fuel0, h⟩ := C27_converters_in_order table hs hk n hn d
    refine ⟨fuel0, fun fuel hf => ?_⟩
    rw [h fuel hf]
    split <;> simp
  have hdet : determineVersion (version d) = .unparsable ∨ determineVersion (version d) = .tooOld ∨
      determineVersion (version d) = .preRelease ∨
      ∃ n, determineVersion (version d) = .minor n ∧ n ≤ GRAPH_MINOR := by
    unfold gate at hgate
    cases hv : version d with
    | none => rw [hv] at hgate; exact absurd hgate (by decide +kernel)
    | some v =>
      rw [hv] at hgate
      simp only at hgate
      by_cases he : v.isEmpty = true
      · rw [if_pos he] at hgate; exact absurd hgate (by decide +kernel)
      · rw [if_neg he] at hgate
        unfold gateText at hgate
        split at hgate
        · cases hgate
        · unfold determineVersion
          rw [Option.getD_some]
          cases hmm : majorMinor v with
          | none => exact Or.inl rfl
          | some mn =>
            obtain ⟨M, m⟩ := mn
            rw [hmm] at hgate
            simp only at hgate ⊢
            split at hgate
            · cases hgate
            · split at hgate
              · rename_i h1 h2
                by_cases g1 : M = 0 ∧ m ≥ 39
                · rw [if_pos g1]; exact Or.inr (Or.inr (Or.inl rfl))
                · rw [if_neg g1]
                  by_cases g2 : M = 0 ∧ m < 39
                  · rw [if_pos g2]; exact Or.inr (Or.inl rfl)
                  · rw [if_neg g2]
                    refine Or.inr (Or.inr (Or.inr ⟨m, rfl, ?_⟩))
                    rcases h2 with h2 | h2
                    · exfalso; omega
                    · omega
              · cases hgate
  unfold convertFile
  rcases hdet with h | h | h | ⟨n, h, hn⟩
  · rw [h]; exact ⟨0, fun _ _ => ⟨_, rfl, by simp⟩⟩
  · rw [h]; exact ⟨0, fun _ _ => ⟨_, rfl, by simp⟩⟩
  · rw [h]
    simp only
    cases hp : pre d with
    | none => exact ⟨0, fun _ _ => ⟨_, rfl, by simp⟩⟩
    | some d' =>
      have h0 : determineVersion (version d') = .minor 0 := by
        rw [hpre d' hp]; decide +kernel
      obtain ⟨fuel0, h⟩ := main 0 (by decide) d'
      refine ⟨fuel0, fun fuel hf => ⟨_, rfl, ?_⟩⟩
      simp only [h0]
      exact h fuel hf
  · rw [h]
    obtain ⟨fuel0, h⟩ := main n hn d
    exact ⟨fuel0, fun fuel hf => ⟨_, rfl, h fuel hf⟩⟩

/-- The table of the code, legacy.py:573-578, with its sortedness and bound. -/
example {D : Type} (c9 c14 c15 : D → Option D) :
    let t : Table D := [(9, c9), (14, c14), (15, c15)]
    (t.map Prod.fst).Pairwise (· < ·) ∧ (∀ e ∈ t, 0 ≤ e.1 ∧ e.1 ≤ GRAPH_MINOR) ∧
    (t.filter (fun e => (10 : Int) ≤ e.1)).map Prod.snd = [c14, c15] := by
  refine ⟨by simp, ?_, rfl⟩
  intro e he
  simp only [List.mem_cons, List.not_mem_nil, or_false] at he
  rcases he with rfl | rfl | rfl <;> simp [GRAPH_MINOR]

end Nxt.Props
