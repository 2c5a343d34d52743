import Verif.Lemmas.Tokens
/-!
# Properties C01-C05: token syntax (`nxt/tokens.py`)
-/
namespace Nxt.Props
open Py Spec Tokens

/-- **C01** Unwrapping a wrapped text gives the text back, whatever the text contains. -/
theorem C01_token_roundtrip (c : Str) : getTokenContent (makeTokenStr c) = c := by
  have h1 : partition? PREFIX (makeTokenStr c) = some ([], c ++ SUFFIX) := by
    apply partition?_eq (by simp [PREFIX])
    · simp [makeTokenStr]
    · simp
  have h2 : rpartition? SUFFIX (c ++ SUFFIX) = some (c, []) :=
    rpartition?_char (c := '}') (a := c) (b := []) (by simp)
  simp [getTokenContent, h1, h2]

/-- C01: the content may itself contain delimiters. -/
example : getTokenContent (makeTokenStr "a${b}}c${".toList) = "a${b}}c${".toList :=
  C01_token_roundtrip _

/-- **C02** (totality) Every text can be cut into gaps and standalone tokens. -/
theorem C02_parse_total (raw : Str) : ∃ ts ok, Parse raw ts ok := exists_parse raw

/-- **C02** The scanner returns exactly the standalone tokens of the text, left to right, when every
opener is closed, and nothing otherwise. -/
theorem C02_standalone_exact {raw : Str} {ts : List Str} {ok : Bool} (h : Parse raw ts ok) :
    standaloneAll raw = if ok then ts else [] := by
  have := scan_parse h [] {} rfl rfl rfl
  simp only [List.nil_append, List.map_nil] at this
  unfold standaloneAll
  cases ok with
  | true => obtain ⟨h1, h2⟩ := this.1 rfl; simp [h1, h2]
  | false => have := this.2 rfl; simp; intro h; omega

/-- C02: tokens are slices of the text with nesting, stray closers are skipped. -/
example : Parse "x}${a${b}}-${c}".toList ["${a${b}}".toList, "${c}".toList] true ∧
    standaloneAll "x}${a${b}}-${c}".toList = ["${a${b}}".toList, "${c}".toList] := by
  have hs : standaloneAll "x}${a${b}}-${c}".toList = ["${a${b}}".toList, "${c}".toList] := by decide
  obtain ⟨ts, ok, h⟩ := C02_parse_total "x}${a${b}}-${c}".toList
  have h2 := C02_standalone_exact h
  rw [hs] at h2
  cases ok with
  | true => simp at h2; subst h2; exact ⟨h, hs⟩
  | false => simp at h2

/-- C02: an unclosed opener hides every token. -/
example : standaloneAll "${a} ${b".toList = [] := by decide

/-- **C02** The parse of a text is unique where it matters: two parses that both close agree. -/
theorem C02_parse_unique {raw : Str} {ts ts' : List Str} (h : Parse raw ts true)
    (h' : Parse raw ts' true) : ts = ts' := by
  have a := C02_standalone_exact h
  have b := C02_standalone_exact h'
  simp at a b
  rw [← a, ← b]

theorem parse_tokens {raw : Str} {ts : List Str} {ok : Bool} (h : Parse raw ts ok) :
    ∀ t ∈ ts, IsToken t := by
  induction h with
  | done => simp
  | unclosed => simp
  | tok hg ht hp ih => intro t h; simp at h; rcases h with rfl | h
                       · exact ht
                       · exact ih t h

/-- **C02** Every returned piece is a standalone token, in particular it starts with `${`, ends with
`}` and is a contiguous piece of the text. -/
theorem C02_standalone_sound {raw t : Str} (h : t ∈ standaloneAll raw) :
    IsToken t ∧ (∃ c, t = PREFIX ++ c ++ SUFFIX) ∧ (∃ a b, raw = a ++ t ++ b) := by
  obtain ⟨ts, ok, hp⟩ := exists_parse raw
  have hx := C02_standalone_exact hp
  rw [hx] at h
  cases ok with
  | false => simp at h
  | true =>
    simp at h
    have ht := parse_tokens hp t h
    refine ⟨ht, ?_, ?_⟩
    · obtain ⟨⟨r, rfl⟩, hbal, hpre⟩ := ht
      have hr : r ≠ [] := by rintro rfl; simp [closes, opens] at hbal
      obtain ⟨m, l, rfl⟩ : ∃ m l, r = m ++ [l] :=
        ⟨r.dropLast, r.getLast hr, (List.dropLast_concat_getLast hr).symm⟩
      have hpm := hpre ('$' :: '{' :: m) [l] (by simp) (by simp) (by simp)
      have hge := opens_append_ge ('$' :: '{' :: m) [l]
      have hl : l = '}' := by
        by_cases hl : l = '}'
        · exact hl
        · exfalso
          have h1 : closes ('$' :: '{' :: (m ++ [l])) = closes ('$' :: '{' :: m) := by
            have := closes_append ('$' :: '{' :: m) [l]
            simpa [closes_cons, hl, closes] using this
          have h2 : opens ('$' :: '{' :: (m ++ [l])) = opens ('$' :: '{' :: m ++ [l]) := by simp
          omega
      exact ⟨m, by simp [PREFIX, SUFFIX, hl]⟩
    · clear hx ht
      generalize true = ok at hp
      induction hp with
      | done => simp at h
      | unclosed => simp at h
      | tok hg htok hpr ih =>
        rename_i g t' rest ts ok
        simp at h
        rcases h with rfl | h
        · exact ⟨g, rest, rfl⟩
        · obtain ⟨a, b, hab⟩ := ih h
          exact ⟨g ++ t' ++ a, b, by simp [hab]⟩

example : "${c}".toList ∈ standaloneAll "x}${a${b}}-${c}".toList := by decide

/-- **C02/C03** Token text and content are inverse on every returned token. -/
theorem C02_standalone_rewrap {raw t : Str} (h : t ∈ standaloneAll raw) :
    makeTokenStr (getTokenContent t) = t := by
  obtain ⟨c, rfl⟩ := (C02_standalone_sound h).2.1
  exact congrArg makeTokenStr (C01_token_roundtrip c)

/-- **C03** Filtering by token type returns, in order, those standalone tokens whose content starts
with a requested prefix. -/
theorem C03_filter_exact (raw : Str) (prefixes : List Str) :
    (getStandaloneTokens raw prefixes).Sublist (standaloneAll raw) ∧
    ∀ t ∈ standaloneAll raw, t ∈ getStandaloneTokens raw prefixes ↔
      ∃ p ∈ prefixes, ∃ rest, t = PREFIX ++ p ++ rest := by
  refine ⟨List.filter_sublist, fun t ht => ?_⟩
  simp only [getStandaloneTokens, List.mem_filter, ht, true_and, List.any_eq_true]
  constructor
  · rintro ⟨p, hp, h⟩
    obtain ⟨r, hr⟩ := startsWith_iff.1 h
    exact ⟨p, hp, r, hr⟩
  · rintro ⟨p, hp, r, hr⟩
    exact ⟨p, hp, startsWith_iff.2 ⟨r, hr⟩⟩

/-- **C03** With the empty (attribute) prefix among the requested ones nothing is filtered; in
particular the default call returns every standalone token. -/
theorem C03_attr_filters_nothing (raw : Str) (prefixes : List Str) (h : [] ∈ prefixes) :
    getStandaloneTokens raw prefixes = standaloneAll raw := by
  unfold getStandaloneTokens
  rw [List.filter_eq_self]
  intro t ht
  obtain ⟨c, hc⟩ := (C02_standalone_sound ht).2.1
  rw [List.any_eq_true]
  exact ⟨[], h, startsWith_iff.2 ⟨c ++ SUFFIX, by simp [hc]⟩⟩

example : getStandaloneTokens "${file::a} ${b}".toList ALL_PREFIXES
    = ["${file::a}".toList, "${b}".toList] := by decide +kernel
example : getStandaloneTokens "${file::a} ${b}".toList ["file::".toList]
    = ["${file::a}".toList] := by decide +kernel

/-- **C04** A successful partition loses no text and returns an innermost token, the last opener of
the text being the one of the token. -/
theorem C04_partition_some {v b t a : Str} (h : atomicTokenPartition v = some (b, t, a)) :
    v = b ++ t ++ a ∧ ∃ c, t = PREFIX ++ c ++ SUFFIX ∧ '}' ∉ c ∧ opens (c ++ SUFFIX ++ a) = 0 := by
  unfold atomicTokenPartition at h
  split at h
  · simp at h
  · rename_i before afterBef h1
    split at h
    · simp at h
    · rename_i token after h2
      simp only [Option.some.injEq, Prod.mk.injEq] at h
      obtain ⟨rfl, rfl, rfl⟩ := h
      obtain ⟨h3, h4⟩ := partition?_char_some h2
      obtain ⟨h5, h6⟩ := rpartition?_some (by simp [PREFIX]) h1
      refine ⟨by rw [h5, h3]; simp [makeTokenStr, SUFFIX], token, rfl, h4, ?_⟩
      have e : token ++ SUFFIX ++ after = afterBef := by simp [h3, SUFFIX]
      rw [e, opens_eq_zero_iff]
      intro x y hxy
      have := h6 (before ++ PREFIX ++ x) y (by rw [h5, hxy]; simp)
      simp [PREFIX] at this
      omega

/-- **C04** The partition fails exactly when the text has no opener, or no closer after its last
opener. -/
theorem C04_partition_none (v : Str) : atomicTokenPartition v = none ↔
    opens v = 0 ∨ ∃ b c, v = b ++ PREFIX ++ c ∧ opens c = 0 ∧ '}' ∉ c := by
  unfold atomicTokenPartition
  constructor
  · intro h
    split at h
    · rename_i h1
      exact .inl ((opens_eq_zero_iff v).2 (rpartition?_none (by simp [PREFIX]) h1))
    · rename_i before afterBef h1
      split at h
      · rename_i h2
        obtain ⟨h5, h6⟩ := rpartition?_some (by simp [PREFIX]) h1
        refine .inr ⟨before, afterBef, h5, ?_, partition?_char_none_iff.1 h2⟩
        rw [opens_eq_zero_iff]
        intro x y hxy
        have := h6 (before ++ PREFIX ++ x) y (by rw [h5, hxy]; simp)
        simp [PREFIX] at this
        omega
      · simp at h
  · rintro (h | ⟨b, c, hv, hc, hcl⟩)
    · split
      · rfl
      · rename_i h1
        exact absurd (rpartition?_some (by simp [PREFIX]) h1).1 ((opens_eq_zero_iff v).1 h _ _)
    · have h1 : rpartition? PREFIX v = some (b, c) := by
        apply rpartition?_eq (by simp [PREFIX]) hv
        intro a' b' hab
        rcases Nat.lt_or_ge b.length a'.length with hlt | hge
        · exfalso
          -- the later opener would lie in `c` or straddle the first one
          rw [hv] at hab
          simp only [List.append_assoc] at hab
          rcases List.append_eq_append_iff.1 hab with ⟨m, hm1, hm2⟩ | ⟨m, hm1, hm2⟩
          · -- a' = b ++ m, PREFIX ++ c = m ++ PREFIX ++ b'
            cases m with
            | nil => simp at hm1; subst hm1; exact absurd hlt (Nat.lt_irrefl _)
            | cons x m =>
              simp only [PREFIX, List.cons_append, List.nil_append, List.cons.injEq] at hm2
              obtain ⟨rfl, hm2⟩ := hm2
              cases m with
              | nil => simp at hm2
              | cons y m =>
                simp only [List.cons_append, List.cons.injEq] at hm2
                exact (opens_eq_zero_iff c).1 hc m b' (by simp [PREFIX, hm2.2])
          · rw [hm1] at hlt; simp at hlt; omega
        · exact hge
      rw [h1]
      simp only [SUFFIX, partition?_char_none hcl]

example : atomicTokenPartition "a${b${c}}d".toList
    = some ("a${b".toList, "${c}".toList, "}d".toList) := by decide
example : atomicTokenPartition "a${b} ${c".toList = none := by decide

/-- Every opener of `v` at or after position `k` is closed before the next opener. -/
def ClosedFrom (v : Str) (k : Nat) : Prop :=
  ∀ a' b', v = a' ++ PREFIX ++ b' → k ≤ a'.length →
    ∃ c' r', b' = c' ++ '}' :: r' ∧ opens c' = 0

/-- An opener of `x ++ PREFIX ++ y` lies in `x`, is the middle one, or lies in `y`. -/
theorem opener_cases {x y a b : Str} (h : x ++ PREFIX ++ y = a ++ PREFIX ++ b) :
    (∃ m, x = a ++ PREFIX ++ m ∧ b = m ++ PREFIX ++ y) ∨ (a = x ∧ b = y) ∨
    (∃ m, y = m ++ PREFIX ++ b ∧ a = x ++ PREFIX ++ m) := by
  simp only [List.append_assoc] at h
  rcases List.append_eq_append_iff.1 h with ⟨m, hm1, hm2⟩ | ⟨m, hm1, hm2⟩
  · -- a = x ++ m
    cases m with
    | nil => simp at hm1 hm2; exact .inr (.inl ⟨hm1, hm2.symm⟩)
    | cons c m =>
      simp only [PREFIX, List.cons_append, List.nil_append, List.cons.injEq] at hm2
      obtain ⟨rfl, hm2⟩ := hm2
      cases m with
      | nil => simp at hm2
      | cons d m =>
        simp only [List.cons_append, List.cons.injEq] at hm2
        obtain ⟨rfl, hm2⟩ := hm2
        exact .inr (.inr ⟨m, by simp [PREFIX, hm2], by simp [PREFIX, hm1]⟩)
  · cases m with
    | nil => simp at hm1 hm2; exact .inr (.inl ⟨hm1.symm, hm2⟩)
    | cons c m =>
      simp only [PREFIX, List.cons_append, List.nil_append, List.cons.injEq] at hm2
      obtain ⟨rfl, hm2⟩ := hm2
      cases m with
      | nil => simp at hm2
      | cons d m =>
        simp only [List.cons_append, List.cons.injEq] at hm2
        obtain ⟨rfl, hm2⟩ := hm2
        exact .inl ⟨m, by simp [PREFIX, hm1], by simp [PREFIX, hm2]⟩

/-- **C05** Exact result of the atomic token collection: a token `${c}` is returned iff it occurs in
the text with innermost content, and every opener from there to the end of the text is closed before
the next opener.  The recursion terminates for every text (it is a total function of the model,
each call being on a shorter text). -/
theorem C05_atomic_exact (v t : Str) : t ∈ getAtomicTokens v ↔
    ∃ a c r, v = a ++ PREFIX ++ (c ++ '}' :: r) ∧ '}' ∉ c ∧ opens c = 0 ∧ t = makeTokenStr c ∧
      ClosedFrom v a.length := by
  induction hn : v.length using Nat.strongRecOn generalizing v t with
  | _ n ih =>
    rw [getAtomicTokens]
    split
    · rename_i hnone
      simp only [List.not_mem_nil, false_iff]
      rintro ⟨a, c, r, hv, -, -, -, hcl⟩
      rcases (C04_partition_none v).1 hnone with h0 | ⟨b, d, hb, hd, hd2⟩
      · exact (opens_eq_zero_iff v).1 h0 _ _ hv
      · have hle : a.length ≤ b.length := by
          have e : b ++ PREFIX ++ d = a ++ PREFIX ++ (c ++ '}' :: r) := by rw [← hb, hv]
          rcases opener_cases e with ⟨m, hm, -⟩ | ⟨rfl, -⟩ | ⟨m, hm, -⟩
          · rw [hm]; simp
          · exact Nat.le_refl _
          · exact absurd hm ((opens_eq_zero_iff d).1 hd m _)
        obtain ⟨c', r', hc', -⟩ := hcl b d hb hle
        exact hd2 (by rw [hc']; simp)
    · rename_i before token after hsome
      obtain ⟨hv, c0, ht0, hc0, hop0⟩ := C04_partition_some hsome
      have hlen := atomicTokenPartition_length hsome
      have hv' : v = before ++ PREFIX ++ (c0 ++ '}' :: after) := by
        rw [hv, ht0]; simp [SUFFIX]
      have hop0' : opens (c0 ++ '}' :: after) = 0 := by simpa [SUFFIX] using hop0
      have hopc : opens c0 = 0 := by
        have := opens_append_ge c0 ('}' :: after); omega
      have hopa : opens after = 0 := by
        have := opens_append_ge (c0 ++ ['}']) after
        simp only [List.append_assoc, List.singleton_append] at this
        omega
      have hafter : getAtomicTokens after = [] := by
        rw [getAtomicTokens]
        have : atomicTokenPartition after = none := (C04_partition_none after).2 (.inl hopa)
        split
        · rfl
        · rename_i h; rw [this] at h; simp at h
      have hmain : t ∈ [token] ++ (if before ≠ [] then getAtomicTokens before else []) ++
          (if after ≠ [] then getAtomicTokens after else []) ↔
          t = token ∨ t ∈ getAtomicTokens before := by
        rw [hafter]
        by_cases hb : before = []
        · have : getAtomicTokens ([] : Str) = [] := by
            rw [getAtomicTokens]; split
            · rfl
            · rename_i h
              have : atomicTokenPartition [] = none := by decide
              rw [this] at h; simp at h
          simp [hb, this]
        · simp [hb]
      rw [hmain, ih before.length (by omega) before t rfl]
      -- closing information can be moved between `before` and `v`
      have hclosed : ∀ k, k ≤ before.length → (ClosedFrom v k ↔ ClosedFrom before k) := by
        intro k hk
        constructor
        · intro h a' b' hab hka
          obtain ⟨c', r', hc', ho⟩ := h a' (b' ++ PREFIX ++ (c0 ++ '}' :: after))
            (by rw [hv', hab]; simp) hka
          -- `c'` has no opener, so its closer lies inside `b'`
          simp only [List.append_assoc] at hc'
          rcases List.append_eq_append_iff.1 hc' with ⟨m, hm1, hm2⟩ | ⟨m, hm1, hm2⟩
          · -- c' = b' ++ m
            exfalso
            cases m with
            | nil => simp [PREFIX] at hm2
            | cons x m =>
              simp only [PREFIX, List.cons_append, List.nil_append, List.cons.injEq] at hm2
              obtain ⟨rfl, hm2⟩ := hm2
              cases m with
              | nil => simp at hm2
              | cons y m =>
                simp only [List.cons_append, List.cons.injEq] at hm2
                obtain ⟨rfl, hm2⟩ := hm2
                exact (opens_eq_zero_iff c').1 ho b' m (by simp [PREFIX, hm1])
          · cases m with
            | nil => simp [PREFIX] at hm2
            | cons x m =>
              simp only [List.cons_append, List.cons.injEq] at hm2
              obtain ⟨rfl, hm2⟩ := hm2
              exact ⟨c', m, hm1, ho⟩
        · intro h a' b' hab hka
          rw [hv'] at hab
          rcases opener_cases hab with ⟨m, hm, hb⟩ | ⟨rfl, rfl⟩ | ⟨m, hm, -⟩
          · obtain ⟨c', r', hc', ho⟩ := h a' m hm hka
            exact ⟨c', r' ++ PREFIX ++ (c0 ++ '}' :: after), by rw [hb, hc']; simp, ho⟩
          · exact ⟨c0, after, rfl, hopc⟩
          · exact absurd hm ((opens_eq_zero_iff _).1 hop0' m _)
      constructor
      · rintro (rfl | ⟨a, c, r, hb, hc, ho, rfl, hcl⟩)
        · refine ⟨before, c0, after, hv', hc0, hopc, ht0, ?_⟩
          rw [hclosed _ (Nat.le_refl _)]
          intro a' b' hab hle
          exfalso
          rw [hab] at hle
          simp [PREFIX] at hle
          omega
        · refine ⟨a, c, r ++ PREFIX ++ (c0 ++ '}' :: after), ?_, hc, ho, rfl, ?_⟩
          · rw [hv', hb]; simp
          · rw [hclosed]
            · exact hcl
            · rw [hb]; simp
      · rintro ⟨a, c, r, hva, hc, ho, rfl, hcl⟩
        have e : before ++ PREFIX ++ (c0 ++ '}' :: after) = a ++ PREFIX ++ (c ++ '}' :: r) := by
          rw [← hv', hva]
        rcases opener_cases e with ⟨m, hm, hb⟩ | ⟨rfl, hb⟩ | ⟨m, hm, -⟩
        · right
          have hcl' := (hclosed a.length (by rw [hm]; simp)).1 hcl
          obtain ⟨c', r', hc', ho'⟩ := hcl' a m hm (Nat.le_refl _)
          -- the first closer after the opener is unique
          have hcc : c ++ '}' :: r = c' ++ '}' :: (r' ++ PREFIX ++ (c0 ++ '}' :: after)) := by
            rw [hb, hc']; simp
          have hcin : ∃ m', m = c ++ '}' :: m' := by
            have hp1 := partition?_char (c := '}') (a := c) (b := r) hc
            rw [hcc] at hp1
            have hmem : '}' ∈ m := by rw [hc']; simp
            cases hpm : partition? ['}'] m with
            | none => exact absurd hmem (partition?_char_none_iff.1 hpm)
            | some xy =>
              obtain ⟨x, y⟩ := xy
              obtain ⟨hx1, hx2⟩ := partition?_char_some hpm
              have hp2 := partition?_char (c := '}') (a := x)
                (b := y ++ PREFIX ++ (c0 ++ '}' :: after)) hx2
              have e2 : c' ++ '}' :: (r' ++ PREFIX ++ (c0 ++ '}' :: after))
                  = x ++ '}' :: (y ++ PREFIX ++ (c0 ++ '}' :: after)) := by
                have h3 : c' ++ '}' :: r' = x ++ '}' :: y := by rw [← hc', ← hx1]
                have h4 := congrArg (· ++ (PREFIX ++ (c0 ++ '}' :: after))) h3
                simpa using h4
              rw [e2] at hp1
              have h5 := hp1.symm.trans hp2
              simp only [Option.some.injEq, Prod.mk.injEq] at h5
              exact ⟨y, by rw [h5.1]; exact hx1⟩
          obtain ⟨m', hm'⟩ := hcin
          exact ⟨a, c, m', by rw [hm, hm'], hc, ho, rfl, hcl'⟩
        · left
          have hp1 := partition?_char (c := '}') (a := c) (b := r) hc
          have hp2 := partition?_char (c := '}') (a := c0) (b := after) hc0
          rw [hb] at hp1
          have h5 := hp1.symm.trans hp2
          simp only [Option.some.injEq, Prod.mk.injEq] at h5
          rw [ht0, h5.1]; rfl
        · exact absurd hm ((opens_eq_zero_iff _).1 hop0' m _)

/-- **C05** Soundness: collected tokens are innermost tokens occurring in the text. -/
theorem C05_atomic_sound {v t : Str} (h : t ∈ getAtomicTokens v) :
    IsAtomic t ∧ ∃ a b, v = a ++ t ++ b := by
  obtain ⟨a, c, r, hv, hc, ho, rfl, -⟩ := (C05_atomic_exact v t).1 h
  exact ⟨⟨c, rfl, ho, hc⟩, a, r, by rw [hv]; simp [makeTokenStr, SUFFIX]⟩

example : "${b}".toList ∈ getAtomicTokens "${a${b}} ${c}".toList := by decide +kernel

/-- **C05** The collection is not complete: in a perfectly balanced text the innermost token `${x}`
is not found when a nested token follows it. -/
theorem C05_atomic_incomplete : ∃ v t : Str, IsAtomic t ∧ (∃ a b, v = a ++ t ++ b) ∧
    (∃ ts, Parse v ts true) ∧ t ∉ getAtomicTokens v := by
  refine ⟨"${x} ${a${b}}".toList, "${x}".toList, ⟨"x".toList, by decide, by decide, by decide⟩,
    ⟨[], " ${a${b}}".toList, by decide⟩, ?_, ?_⟩
  · obtain ⟨ts, ok, hp⟩ := exists_parse "${x} ${a${b}}".toList
    have h2 := C02_standalone_exact hp
    cases ok with
    | true => exact ⟨ts, hp⟩
    | false =>
      have h3 : standaloneAll "${x} ${a${b}}".toList ≠ [] := by decide
      rw [h2] at h3; simp at h3
  · intro h
    obtain ⟨a, c, r, hv, -, -, ht, hcl⟩ := (C05_atomic_exact _ _).1 h
    have hlen : a.length ≤ 5 ∨ 5 < a.length := by omega
    rcases hlen with hle | hgt
    · obtain ⟨c', r', hcr, ho⟩ := hcl "${x} ".toList "a${b}}".toList (by decide) hle
      -- the closer lies behind the opener `${b`
      have hp : ∀ c' r' : Str, "a${b}}".toList = c' ++ '}' :: r' → opens c' ≠ 0 := by
        intro c' r' h
        have h2 : c'.length ≤ 5 := by
          have := congrArg List.length h; simp at this; omega
        have h3 : c' = "a${b}}".toList.take c'.length := by rw [h]; simp
        have h4 : "a${b}}".toList[c'.length]? = some '}' := by rw [h]; simp
        generalize c'.length = k at *
        rw [h3]
        rcases k with _ | _ | _ | _ | _ | _ | k
        all_goals first | omega | (revert h4; decide)
      exact hp c' r' hcr ho
    · -- then the token found would be `${a` or `${b}`
      have hc : c = "x".toList := by
        have h1 := C01_token_roundtrip c
        rw [← ht] at h1
        have h2 : getTokenContent "${x}".toList = "x".toList := by decide
        rw [← h1, h2]
      subst hc
      have h2 : a.length ≤ 9 := by
        have := congrArg List.length hv; simp [PREFIX] at this; omega
      have h4 : "${x} ${a${b}}".toList[a.length + 2]? = some 'x' := by
        rw [hv]; simp [PREFIX, List.getElem?_append]
      generalize a.length = k at *
      have h5 : k = 6 ∨ k = 7 ∨ k = 8 ∨ k = 9 := by omega
      rcases h5 with rfl | rfl | rfl | rfl <;> (revert h4; decide)

end Nxt.Props
