import Verif.Lemmas.FilePaths
/-!
# Properties C50, C52, C53: historical file values, temp folders, environment variables
-/
namespace Nxt.Props
open FilePaths Spec Py

/-! ## C50 -/

theorem hist_aux (value : Nat → Option Str) (first n : Nat) :
    ∃ ds : List Nat, ds.Pairwise (· < ·) ∧ (∀ d, d ∈ ds ↔ FirstDepth value first (first + n) d) ∧
      (historicalValues value first (first + n)).map some = ds.map value := by
  have hv : historicalValues value first (first + n) = (List.range' first n).foldl (fun seen depth =>
      match value depth with
      | none => seen
      | some v => if v ≠ [] ∧ v ∉ seen then seen ++ [v] else seen) [] := by
    unfold historicalValues; rw [Nat.add_sub_cancel_left]; rfl
  rw [hv]; clear hv
  induction n with
  | zero =>
    refine ⟨[], List.Pairwise.nil, fun d => ⟨nofun, fun h => ?_⟩, rfl⟩
    exact absurd h.1 (by have := h.2.1; omega)
  | succ n ih =>
    obtain ⟨ds, h1, h2, h3⟩ := ih
    rw [List.range'_1_concat, List.foldl_append, List.foldl_cons, List.foldl_nil]
    generalize (List.range' first n).foldl _ [] = seen at *
    have hlt : ∀ d ∈ ds, d < first + n := fun d hd => ((h2 d).1 hd).2.1
    have mono : ∀ d, d ≠ first + n →
        (FirstDepth value first (first + (n + 1)) d ↔ FirstDepth value first (first + n) d) := by
      intro d hd
      constructor
      · rintro ⟨a, b, c⟩; exact ⟨a, by omega, c⟩
      · rintro ⟨a, b, c⟩; exact ⟨a, by omega, c⟩
    have keep : ¬ FirstDepth value first (first + (n + 1)) (first + n) →
        ∀ d, d ∈ ds ↔ FirstDepth value first (first + (n + 1)) d := by
      intro hno d
      by_cases hd : d = first + n
      · subst hd
        exact ⟨fun h => absurd (hlt _ h) (by omega), fun h => absurd h hno⟩
      · rw [mono d hd]; exact h2 d
    have hseen : ∀ v, v ∈ seen ↔ ∃ d ∈ ds, value d = some v := by
      intro v
      have : some v ∈ seen.map some ↔ some v ∈ ds.map value := by rw [h3]
      simpa using this
    cases hval : value (first + n) with
    | none =>
      refine ⟨ds, h1, keep ?_, h3⟩
      rintro ⟨_, _, v, hv, _⟩
      rw [hval] at hv; cases hv
    | some v =>
      simp only
      by_cases hc : v ≠ [] ∧ v ∉ seen
      · rw [if_pos hc]
        refine ⟨ds ++ [first + n], ?_, ?_, by rw [List.map_append, List.map_append, h3]; simp [hval]⟩
        · rw [List.pairwise_append]
          refine ⟨h1, by simp, fun a ha b hb => ?_⟩
          rw [List.mem_singleton.1 hb]; exact hlt a ha
        · intro d
          rw [List.mem_append, List.mem_singleton]
          by_cases hd : d = first + n
          · subst hd
            refine ⟨fun _ => ⟨by omega, by omega, v, hval, hc.1, fun d' a b hd' => ?_⟩, fun _ => Or.inr rfl⟩
            refine hc.2 ((hseen v).2 ?_)
            -- the first depth with this value is listed
            have : ∀ k d', d' < k → first ≤ d' → d' < first + n → value d' = some v → ∃ d ∈ ds, value d = some v := by
              intro k
              induction k with
              | zero => intro d' h; omega
              | succ k ihk =>
                intro d' hk a b hd'
                by_cases hf : ∃ d'', first ≤ d'' ∧ d'' < d' ∧ value d'' = some v
                · obtain ⟨d'', a', b', e'⟩ := hf
                  exact ihk d'' (by omega) a' (by omega) e'
                · refine ⟨d', (h2 d').2 ⟨a, b, v, hd', hc.1, fun d'' a' b' e' => hf ⟨d'', a', b', e'⟩⟩, hd'⟩
            exact this (d' + 1) d' (by omega) a b hd'
          · rw [mono d hd, ← h2 d]
            simp [hd]
      · rw [if_neg hc]
        refine ⟨ds, h1, keep ?_, h3⟩
        rintro ⟨_, _, w, hw, hw0, hw'⟩
        rw [hval] at hw; cases hw
        have : v ∈ seen := Classical.byContradiction fun h => hc ⟨hw0, h⟩
        obtain ⟨d, hd, he⟩ := (hseen v).1 this
        exact hw' d ((h2 d).1 hd).1 (hlt d hd) he

/-- C50: the historical values are those of the depths which have a value no stronger depth has, in
the order of depth. -/
theorem C50_depth_order (value : Nat → Option Str) (first last : Nat) :
    ∃ ds : List Nat, ds.Pairwise (· < ·) ∧ (∀ d, d ∈ ds ↔ FirstDepth value first last d) ∧
      (historicalValues value first last).map some = ds.map value := by
  by_cases h : first ≤ last
  · obtain ⟨n, rfl⟩ := Nat.exists_eq_add_of_le h
    exact hist_aux value first n
  · refine ⟨[], List.Pairwise.nil, fun d => ⟨nofun, fun hd => ?_⟩, ?_⟩
    · exact absurd hd.1 (by have := hd.2.1; omega)
    · unfold historicalValues
      rw [Nat.sub_eq_zero_of_le (by omega)]; rfl

/-- C50: the historical values are distinct and not empty. -/
theorem C50_distinct (value : Nat → Option Str) (first last : Nat) :
    (historicalValues value first last).Nodup ∧ ∀ v ∈ historicalValues value first last, v ≠ [] := by
  obtain ⟨ds, h1, h2, h3⟩ := C50_depth_order value first last
  constructor
  · have : (ds.map value).Nodup := by
      rw [List.Nodup, List.pairwise_map]
      refine List.Pairwise.imp_of_mem ?_ h1
      intro a b ha hb hab he
      obtain ⟨_, _, v, hv, _, hf⟩ := (h2 b).1 hb
      exact hf a ((h2 a).1 ha).1 hab (he.trans hv)
    rw [← h3] at this
    rw [List.Nodup, List.pairwise_map] at this
    exact this.imp (fun h e => h (congrArg some e))
  · intro v hv
    have : some v ∈ ds.map value := by rw [← h3]; exact List.mem_map_of_mem hv
    obtain ⟨d, hd, he⟩ := List.mem_map.1 this
    obtain ⟨_, _, w, hw, hw0, _⟩ := (h2 d).1 hd
    rw [hw] at he; cases he; exact hw0

/-- C50: a file token with fallbacks gives the value of the strongest depth which has one, and the
empty text when there is none. -/
theorem C50_fallback (value : Nat → Option Str) (first last : Nat) :
    (withFallbacks value first last ≠ [] → ∃ d, first ≤ d ∧ d < last ∧ value d = some (withFallbacks value first last) ∧
      ∀ d', first ≤ d' → d' < d → ∀ v, value d' = some v → v = []) ∧
    (withFallbacks value first last = [] → ∀ d, first ≤ d → d < last → ∀ v, value d = some v → v = []) := by
  obtain ⟨ds, h1, h2, h3⟩ := C50_depth_order value first last
  -- every depth with a value has a listed depth before or at it
  have low : ∀ k d, d < k → first ≤ d → d < last → ∀ v, value d = some v → v ≠ [] → ∃ e ∈ ds, e ≤ d := by
    intro k
    induction k with
    | zero => intro d h; omega
    | succ k ih =>
      intro d hk a b v hv hv0
      by_cases hf : ∃ d', first ≤ d' ∧ d' < d ∧ value d' = some v
      · obtain ⟨d', a', b', e'⟩ := hf
        obtain ⟨e, he, hle⟩ := ih d' (by omega) a' (by omega) v e' hv0
        exact ⟨e, he, by omega⟩
      · exact ⟨d, (h2 d).2 ⟨a, b, v, hv, hv0, fun d' a' b' e' => hf ⟨d', a', b', e'⟩⟩, Nat.le_refl _⟩
  unfold withFallbacks
  cases hl : historicalValues value first last with
  | nil =>
    refine ⟨fun h => absurd rfl h, fun _ d a b v hv => Classical.byContradiction fun hv0 => ?_⟩
    rw [hl] at h3
    obtain ⟨e, he, _⟩ := low (d + 1) d (by omega) a b v hv hv0
    have := h3.symm
    rw [List.map_nil, List.map_eq_nil_iff] at this
    rw [this] at he; cases he
  | cons x xs =>
    rw [hl] at h3
    have hx : x ≠ [] := (C50_distinct value first last).2 x (by rw [hl]; exact List.mem_cons_self ..)
    refine ⟨fun _ => ?_, fun h => absurd h hx⟩
    cases ds with
    | nil => cases h3
    | cons d ds =>
      simp only [List.map_cons, List.cons.injEq] at h3
      obtain ⟨a, b, _⟩ := (h2 d).1 (List.mem_cons_self ..)
      refine ⟨d, a, b, h3.1.symm, fun d' a' b' v hv => Classical.byContradiction fun hv0 => ?_⟩
      obtain ⟨e, he, hle⟩ := low (d' + 1) d' (by omega) a' (by omega) v hv hv0
      rcases List.mem_cons.1 he with rfl | he
      · omega
      · have := (List.pairwise_cons.1 h1).1 e he
        omega

example : historicalValues (fun d => [some "a".toList, none, some [], some "b".toList, some "a".toList].getD d none) 0 5 =
    ["a".toList, "b".toList] := by decide +kernel

theorem firstExisting_spec (expand : Str → Str → Str) (exists? : Str → Bool) (file : Str) (roots : List Str) :
    match firstExisting expand exists? file roots with
    | some full => ∃ before r after, roots = before ++ r :: after ∧ full = expand file r ∧ exists? full = true ∧
        ∀ b ∈ before, exists? (expand file b) = false
    | none => ∀ r ∈ roots, exists? (expand file r) = false := by
  induction roots with
  | nil => exact fun _ h => nomatch h
  | cons r rs ih =>
    simp only [firstExisting]
    by_cases he : exists? (expand file r) = true
    · rw [if_pos he]
      exact ⟨[], r, rs, rfl, rfl, he, fun _ h => nomatch h⟩
    · rw [if_neg he]
      have he' : exists? (expand file r) = false := by simpa using he
      cases hf : firstExisting expand exists? file rs with
      | none =>
        rw [hf] at ih
        intro q hq
        rcases List.mem_cons.1 hq with rfl | hq
        · exact he'
        · exact ih q hq
      | some full =>
        rw [hf] at ih
        obtain ⟨b, q, a, h1, h2, h3, h4⟩ := ih
        refine ⟨r :: b, q, a, by rw [h1]; rfl, h2, h3, fun x hx => ?_⟩
        rcases List.mem_cons.1 hx with rfl | hx
        · exact he'
        · exact h4 x hx

/-- C50: a path looked up below the file roots is an existing file of the first root which has it;
the directory of the layer comes last; the empty text means that no place has it. -/
theorem C50_root_fallback (expand : Str → Str → Str) (exists? : Str → Bool) (roots : List Str) (file : Str)
    (layerDir : Option Str) (hex : exists? [] = false) :
    let places := roots ++ (layerDir.toList.filter (fun d => d ≠ [] ∧ exists? d))
    (rootFallback expand exists? roots file layerDir ≠ [] →
      ∃ before r after, places = before ++ r :: after ∧
        rootFallback expand exists? roots file layerDir = expand file r ∧
        exists? (expand file r) = true ∧ ∀ b ∈ before, exists? (expand file b) = false) ∧
    (rootFallback expand exists? roots file layerDir = [] → ∀ r ∈ places, exists? (expand file r) = false) := by
  have hs := firstExisting_spec expand exists? file roots
  unfold rootFallback
  cases hf : firstExisting expand exists? file roots with
  | some full =>
    rw [hf] at hs
    obtain ⟨b, r, a, h1, h2, h3, h4⟩ := hs
    subst h2
    refine ⟨fun _ => ⟨b, r, a ++ _, by rw [h1, List.append_assoc]; rfl, rfl, h3, h4⟩, fun h => ?_⟩
    simp only at h
    rw [h, hex] at h3; cases h3
  | none =>
    rw [hf] at hs
    simp only
    cases layerDir with
    | none =>
      refine ⟨fun h => absurd rfl h, fun _ r hr => hs r (by simpa using hr)⟩
    | some d =>
      simp only
      by_cases hd : d ≠ [] ∧ exists? d = true
      · rw [if_pos hd]
        have e : (some d).toList.filter (fun d => d ≠ [] ∧ exists? d) = [d] := by simp [hd.1, hd.2]
        rw [e]
        by_cases he : exists? (expand file d) = true
        · rw [if_pos he]
          refine ⟨fun _ => ⟨roots, d, [], rfl, rfl, he, hs⟩, fun h => ?_⟩
          rw [h, hex] at he; cases he
        · rw [if_neg he]
          refine ⟨fun h => absurd rfl h, fun _ r hr => ?_⟩
          rcases List.mem_append.1 hr with hr | hr
          · exact hs r hr
          · rw [List.mem_singleton.1 hr]; simpa using he
      · rw [if_neg hd]
        have e : (some d).toList.filter (fun d => d ≠ [] ∧ exists? d) = [] := by
          rw [not_and] at hd
          simp
          intro h; exact by simpa using hd h
        rw [e, List.append_nil]
        exact ⟨fun h => absurd rfl h, fun _ => hs⟩

/-- C50: the roots in the environment variable are looked into in order, those which do not exist are passed over, the
directory of the layer comes last; without the variable there is only that. -/
theorem C50_env_roots (expand : Str → Str → Str) (exists? : Str → Bool) (sep : Char) (env : Option (List Str))
    (henv : ∀ ws, env = some ws → ws ≠ [] ∧ ∀ w ∈ ws, sep ∉ w) (file : Str) (layerDir : Option Str) (hex : exists? [] = false) :
    let places := (env.getD [] ++ layerDir.toList).filter (fun d => exists? d)
    let found := rootFallback expand exists? (envRoots sep exists? (env.map (join [sep]))) file layerDir
    (found ≠ [] → ∃ before r after, places = before ++ r :: after ∧ found = expand file r ∧
      exists? (expand file r) = true ∧ ∀ b ∈ before, exists? (expand file b) = false) ∧
    (found = [] → ∀ r ∈ places, exists? (expand file r) = false) := by
  have e : envRoots sep exists? (env.map (join [sep])) = (env.getD []).filter (fun d => exists? d) := by
    cases env with
    | none => rfl
    | some ws =>
      obtain ⟨h1, h2⟩ := henv ws rfl
      simp only [envRoots, Option.map_some, Option.getD_some]
      rw [split_join h1 h2]
  have e2 : layerDir.toList.filter (fun d => d ≠ [] ∧ exists? d) = layerDir.toList.filter (fun d => exists? d) := by
    refine List.filter_congr fun d _ => ?_
    by_cases hd : d = []
    · subst hd; simp [hex]
    · simp [hd]
  have := C50_root_fallback expand exists? ((env.getD []).filter (fun d => exists? d)) file layerDir hex
  simp only [e2] at this
  simp only [e, List.filter_append]
  exact this

/-- A root which does not exist is passed over, though the path below it does. -/
example : rootFallback (fun f s => s ++ '/' :: f) (fun p => decide (p ∈ ["/a/f".toList, "/b".toList, "/b/f".toList]))
    (envRoots ':' (fun p => decide (p ∈ ["/a/f".toList, "/b".toList, "/b/f".toList])) (some "/a:/b".toList)) "f".toList none =
    "/b/f".toList := by decide +kernel

example : rootFallback (fun f s => s ++ '/' :: f) (fun p => decide (p ∈ ["/b/f".toList, "/c".toList, "/c/f".toList]))
    ["/a".toList, "/b".toList] "f".toList (some "/c".toList) = "/b/f".toList := by decide +kernel

/-! ## C53 -/

/-- C53 (part): on Linux and macOS every `%VAR%` becomes `$VAR` and everything else stays, if percent
signs only occur around variables and no text between two variables is itself the name of one of
them.  Missing: other texts, where it fails (`C53_between_violation`, `C53_percent_violation`). -/
theorem C53_unix_partial (ps : List (Str × Str)) (tail : Str) (hvars : ∀ p ∈ ps, VarName p.2)
    (ht : ∀ p ∈ ps, '%' ∉ p.1) (htail : '%' ∉ tail)
    (hbetween : ∀ p ∈ ps.tail, ∀ q ∈ ps, p.1 ≠ q.2) :
    unifyEnvVars false (winText ps tail) = nixText ps tail := by
  unfold unifyEnvVars
  rw [if_neg (by decide), findWin_winText ps tail hvars ht htail]
  have key : ∀ (vs : List Str) (f : Str → Bool), (∀ v ∈ vs, v ∈ ps.map Prod.snd) →
      vs.foldl (fun r v => replace r (winVar v) (nixVar v)) (mixWin f ps tail) =
        mixWin (fun w => f w || decide (w ∈ vs)) ps tail := by
    intro vs
    induction vs with
    | nil => intro f _; simp
    | cons v vs ih =>
      intro f hv
      obtain ⟨p, hp, rfl⟩ := List.mem_map.1 (hv v (List.mem_cons_self ..))
      rw [List.foldl_cons, replace_mixWin f p.2 (hvars p hp) ps tail hvars ht htail
        (fun q hq => hbetween q hq p hp), ih _ (fun w hw => hv w (List.mem_cons_of_mem _ hw))]
      congr 1
      funext w
      simp [Bool.or_assoc, List.mem_cons]
  have e : winText ps tail = mixWin (fun _ => false) ps tail := by
    simp [winText, mixWin, winVar]
  rw [e, key _ _ (fun v hv => hv)]
  unfold mixWin nixText
  congr 2
  apply List.map_congr_left
  intro p hp
  have : decide (p.2 ∈ ps.map Prod.snd) = true := decide_eq_true (List.mem_map_of_mem hp)
  simp only [this, Bool.or_true, if_true, nixVar]

/-- C53 (part): on Windows every `$VAR` becomes `%VAR%` and everything else stays, if no variable is
a beginning of another one.  Missing: such variables, where it fails (`C53_prefix_violation`). -/
theorem C53_windows_partial (ps : List (Str × Str)) (tail : Str) (hvars : ∀ p ∈ ps, VarName p.2)
    (ht : ∀ p ∈ ps, '$' ∉ p.1) (htail : '$' ∉ tail)
    (hstop : ∀ t ∈ ps.tail.map Prod.fst ++ [tail], ∀ c, t.head? = some c → ¬ VarName [c])
    (hpre : ∀ p ∈ ps, ∀ q ∈ ps, (∃ r, p.2 = q.2 ++ r) → p.2 = q.2) :
    unifyEnvVars true (nixText ps tail) = winText ps tail := by
  have stops : ∀ t, (∀ c, t.head? = some c → ¬ VarName [c]) → Stops t := by
    intro t h c hc
    cases hv : isVarChar c with
    | false => rfl
    | true =>
      refine absurd (fun d hd => ?_) (h c hc)
      rw [List.mem_singleton.1 hd]
      exact mem_of_varChar c hv
  have hs1 : ∀ p ∈ ps.tail, Stops p.1 := fun p hp => stops _ (hstop _ (List.mem_append_left _ (List.mem_map_of_mem hp)))
  have hs2 : Stops tail := stops _ (hstop _ (List.mem_append_right _ (List.mem_singleton.2 rfl)))
  unfold unifyEnvVars
  rw [if_pos rfl, findNix_nixText ps tail hvars ht htail hs1 hs2]
  have key : ∀ (vs : List Str) (f : Str → Bool), (∀ v ∈ vs, v ∈ ps.map Prod.snd) →
      vs.foldl (fun r v => replace r (nixVar v) (winVar v)) (mixNix f ps tail) =
        mixNix (fun w => f w || decide (w ∈ vs)) ps tail := by
    intro vs
    induction vs with
    | nil => intro f _; simp
    | cons v vs ih =>
      intro f hv
      obtain ⟨p, hp, rfl⟩ := List.mem_map.1 (hv v (List.mem_cons_self ..))
      rw [List.foldl_cons, replace_mixNix f p.2 (hvars p hp) ps tail hvars ht htail hs1 hs2
        (fun q hq => hpre q hq p hp), ih _ (fun w hw => hv w (List.mem_cons_of_mem _ hw))]
      congr 1
      funext w
      simp [Bool.or_assoc, List.mem_cons]
  rw [nixText_mix, key _ _ (fun v hv => hv)]
  unfold mixNix winText
  congr 2
  apply List.map_congr_left
  intro p hp
  have : decide (p.2 ∈ ps.map Prod.snd) = true := decide_eq_true (List.mem_map_of_mem hp)
  simp only [this, Bool.or_true, if_true, winVar]

/-- The hypotheses of `C53_unix_partial` and `C53_windows_partial` hold for these pieces. -/
example :
    let ps := [("/a/".toList, "HOME".toList), ("/b.".toList, "USER".toList)]
    (∀ p ∈ ps, VarName p.2) ∧ (∀ p ∈ ps.tail, ∀ q ∈ ps, p.1 ≠ q.2) ∧
    (∀ t ∈ ps.tail.map Prod.fst ++ [[]], ∀ c, t.head? = some c → ¬ VarName [c]) ∧
    winText ps [] = "/a/%HOME%/b.%USER%".toList ∧ nixText ps [] = "/a/$HOME/b.$USER".toList := by
  refine ⟨by unfold VarName; decide +kernel, by decide +kernel, ?_, by decide +kernel, by decide +kernel⟩
  intro t ht c hc
  simp at ht
  rcases ht with rfl | rfl
  · cases hc; unfold VarName; decide +kernel
  · cases hc

example : unifyEnvVars false "/a/%HOME%/b_%USER%".toList = "/a/$HOME/b_$USER".toList := by decide +kernel
example : unifyEnvVars true "/a/$HOME/b.$USER".toList = "/a/%HOME%/b.%USER%".toList := by decide +kernel

/-- C53, violated: the text between two variables is taken for a variable. -/
theorem C53_between_violation : ∃ (ps : List (Str × Str)) (tail : Str), (∀ p ∈ ps, VarName p.2) ∧
    (∀ p ∈ ps, '%' ∉ p.1) ∧ '%' ∉ tail ∧ unifyEnvVars false (winText ps tail) ≠ nixText ps tail :=
  ⟨[([], ['B']), ("/x".toList, ['A']), (['B'], ['A'])], [], by unfold VarName; decide +kernel,
    by decide +kernel, by decide +kernel, by decide +kernel⟩

/-- C53, violated: a doubled percent sign becomes a dollar sign. -/
theorem C53_percent_violation : unifyEnvVars false "100%%".toList = "100$".toList := by decide +kernel

/-- C53, violated: a variable whose name begins with that of another one is torn apart. -/
theorem C53_prefix_violation : unifyEnvVars true "$A/$AB".toList = "%A%/%A%B".toList := by decide +kernel

/-! ## C52 -/

theorem basename_spec (p : Str) : IsBase p (basename p) := by
  unfold basename
  cases h : rpartition? ['/'] p with
  | none => exact ⟨rpartition?_char_none_iff.1 h, Or.inl rfl⟩
  | some ab =>
    obtain ⟨a, b⟩ := ab
    obtain ⟨h1, h2⟩ := rpartition?_char_some h
    exact ⟨h2, Or.inr ⟨a, by simpa using h1⟩⟩

theorem basename_eq_iff (p : Str) : basename p = p ↔ '/' ∉ p := by
  constructor
  · intro h; rw [← h]; exact (basename_spec p).1
  · intro h
    unfold basename
    rw [rpartition?_char_none h]

theorem basename_base (p : Str) : basename (basename p) = basename p :=
  (basename_eq_iff _).2 (basename_spec p).1

/-- The loop, in terms of the original list. -/
theorem tempLoop_refs {V : Type} (refs : List Str) (n k : Nat) (hk : k + n = refs.length) (overs : Dict Str V) :
    let nb := (refs.take k).filter (fun r => decide (basename r ≠ r))
    let nbAll := refs.filter (fun r => decide (basename r ≠ r))
    (tempLoop n k nb.length (nb.map basename ++ refs.drop nb.length) overs).1 =
      nbAll.map basename ++ refs.drop nbAll.length := by
  induction n generalizing k overs with
  | zero =>
    have : refs.take k = refs := List.take_of_length_le (by omega)
    simp only [this, tempLoop]
  | succ n ih =>
    intro nb nbAll
    have hkl : k < refs.length := by omega
    have hle : nb.length ≤ k := by
      refine Nat.le_trans (List.length_filter_le _ _) ?_
      rw [List.length_take]; omega
    have hget : (nb.map basename ++ refs.drop nb.length)[k]? = some refs[k] := by
      rw [List.getElem?_append_right (by rw [List.length_map]; exact hle), List.length_map, List.getElem?_drop,
        Nat.add_sub_cancel' hle, List.getElem?_eq_getElem hkl]
    have htk : refs.take (k + 1) = refs.take k ++ [refs[k]] := by
      rw [List.take_succ, List.getElem?_eq_getElem hkl]; rfl
    have ih' := ih (k + 1) (by omega)
    simp only [htk, List.filter_append] at ih'
    rw [tempLoop, hget]
    simp only
    by_cases hb : basename refs[k] = refs[k]
    · rw [if_pos hb]
      have := ih' overs
      simp only [hb, List.filter_cons, List.filter_nil, ne_eq, not_true_eq_false, decide_false,
        Bool.false_eq_true, if_false, List.append_nil] at this
      exact this
    · rw [if_neg hb]
      have hset : (nb.map basename ++ refs.drop nb.length).set nb.length (basename refs[k]) =
          nb.map basename ++ basename refs[k] :: refs.drop (nb.length + 1) := by
        have hlt : nb.length < refs.length := by omega
        rw [List.set_append_right _ _ (by rw [List.length_map]; exact Nat.le_refl _), List.length_map,
          Nat.sub_self, List.drop_eq_getElem_cons hlt]
        rfl
      rw [hset]
      have := ih' (match Dict.get? refs[k] overs with
          | none => overs
          | some v => Dict.set (basename refs[k]) v (Dict.erase refs[k] overs))
      simp only [List.filter_cons, List.filter_nil, ne_eq, hb, not_false_eq_true, decide_true, if_true,
        List.length_append, List.length_cons, List.length_nil, List.map_append, List.map_cons, List.map_nil,
        List.append_assoc, List.cons_append, List.nil_append] at this
      exact this

/-- C52, what really happens: the base names of the references with a directory are written to the
first places, the rest of the list stays. -/
theorem C52_exact {V : Type} (refs : List Str) (overs : Dict Str V) :
    let qualified := refs.filter (fun r => decide ('/' ∈ r))
    (tempRefs refs overs).1 = qualified.map basename ++ refs.drop qualified.length := by
  have := tempLoop_refs refs refs.length 0 (by omega) overs
  simp only [List.take_zero, List.filter_nil, List.length_nil, List.map_nil, List.nil_append, List.drop_zero] at this
  intro q
  have e : (fun r : Str => decide (basename r ≠ r)) = (fun r => decide ('/' ∈ r)) := by
    funext r
    have := basename_eq_iff r
    by_cases h : '/' ∈ r
    · simp only [h, decide_true, decide_eq_true_eq]
      intro hb; exact (this.1 hb) h
    · simp only [h, decide_false, decide_eq_false_iff_not, ne_eq, Classical.not_not]
      exact this.2 h
  rw [e] at this
  exact this

/-- C52 (part: bare references after all others).  Every reference becomes its base name, in order.
Missing: a bare reference before another one, where it fails (`C52_bare_violation`). -/
theorem C52_refs_partial {V : Type} (refs : List Str) (overs : Dict Str V) (A B : List Str) (hr : refs = A ++ B)
    (hA : ∀ r ∈ A, '/' ∈ r) (hB : ∀ r ∈ B, '/' ∉ r) :
    (tempRefs refs overs).1.length = refs.length ∧
    ∀ (i : Nat) (r b : Str), refs[i]? = some r → (tempRefs refs overs).1[i]? = some b → IsBase r b := by
  have h := C52_exact refs overs
  have e : refs.filter (fun r => decide ('/' ∈ r)) = A := by
    rw [hr, List.filter_append, List.filter_eq_self.2 (by simpa using hA), List.filter_eq_nil_iff.2 (by simpa using hB),
      List.append_nil]
  simp only [e] at h
  have hB' : B.map basename = B := by
    conv => rhs; rw [← List.map_id B]
    exact List.map_congr_left (fun r hr' => (basename_eq_iff r).2 (hB r hr'))
  have h2 : (tempRefs refs overs).1 = refs.map basename := by
    rw [h, hr, List.drop_left, List.map_append, hB']
  rw [h2]
  refine ⟨by simp, fun i r b h1 h3 => ?_⟩
  rw [List.getElem?_map, h1] at h3
  cases h3
  exact basename_spec r

/-- C52, violated: a bare reference before another one is lost, and the other one stays as it was. -/
theorem C52_bare_violation : (tempRefs ["a.nxt".toList, "x/b.nxt".toList] ([] : Dict Str Unit)).1 =
    ["b.nxt".toList, "x/b.nxt".toList] := by decide +kernel

/-- The overrides after the references done so far. -/
theorem tempLoop_overs {V : Type} (orig : Dict Str V) (ho : Dict.Ok orig) (refs : List Str)
    (hinj : ∀ r ∈ refs, ∀ r' ∈ refs, basename r = basename r' → r = r')
    (hkeys : ∀ r ∈ refs, '/' ∈ r → Dict.get? (basename r) orig = none)
    (n k idx : Nat) (hk : k + n = refs.length) (hidx : idx ≤ k) (cur : List Str) (hlen : cur.length = refs.length)
    (hcur : ∀ i, k ≤ i → cur[i]? = refs[i]?)
    (overs : Dict Str V) (hok : Dict.Ok overs)
    (ha : ∀ r ∈ refs.take k, '/' ∈ r → Dict.get? (basename r) overs = Dict.get? r orig ∧ Dict.get? r overs = none)
    (hc : ∀ q, (∀ r ∈ refs.take k, '/' ∈ r → q ≠ r ∧ q ≠ basename r) → Dict.get? q overs = Dict.get? q orig) :
    let out := (tempLoop n k idx cur overs).2
    (∀ r ∈ refs, '/' ∈ r → Dict.get? (basename r) out = Dict.get? r orig ∧ Dict.get? r out = none) ∧
    (∀ q, (∀ r ∈ refs, '/' ∈ r → q ≠ r ∧ q ≠ basename r) → Dict.get? q out = Dict.get? q orig) := by
  induction n generalizing k idx cur overs with
  | zero =>
    have : refs.take k = refs := List.take_of_length_le (by omega)
    rw [this] at ha hc
    exact ⟨ha, hc⟩
  | succ n ih =>
    have hkl : k < refs.length := by omega
    have hget : cur[k]? = some refs[k] := by rw [hcur k (Nat.le_refl _), List.getElem?_eq_getElem hkl]
    have htk : refs.take (k + 1) = refs.take k ++ [refs[k]] := by
      rw [List.take_succ, List.getElem?_eq_getElem hkl]; rfl
    have hmem : refs[k] ∈ refs := List.getElem_mem hkl
    have hsub : ∀ r ∈ refs.take k, r ∈ refs := fun r hr => List.mem_of_mem_take hr
    rw [tempLoop, hget]
    simp only
    by_cases hb : basename refs[k] = refs[k]
    · rw [if_pos hb]
      have hno : '/' ∉ refs[k] := (basename_eq_iff _).1 hb
      refine ih (k + 1) idx (by omega) (by omega) cur hlen (fun i hi => hcur i (by omega)) overs hok ?_ ?_
      · intro r hr hs
        rw [htk, List.mem_append, List.mem_singleton] at hr
        rcases hr with hr | rfl
        · exact ha r hr hs
        · exact absurd hs hno
      · intro q hq
        exact hc q (fun r hr => hq r (by rw [htk]; exact List.mem_append_left _ hr))
    · rw [if_neg hb]
      have hyes : '/' ∈ refs[k] := Classical.byContradiction fun h => hb ((basename_eq_iff _).2 h)
      have hne : ∀ r : Str, basename r ≠ refs[k] := by
        intro r he
        exact (basename_spec r).1 (he ▸ hyes)
      refine ih (k + 1) (idx + 1) (by omega) (by omega) _ (by rw [List.length_set]; exact hlen) ?_ _ ?_ ?_ ?_
      · intro i hi
        rw [List.getElem?_set_ne (by omega)]
        exact hcur i (by omega)
      · split
        · exact hok
        · exact Dict.ok_set (Dict.ok_erase hok _) _ _
      · -- values of the references done
        intro r hr hs
        rw [htk, List.mem_append, List.mem_singleton] at hr
        by_cases hdone : refs[k] ∈ refs.take k
        · -- a reference which was there before
          obtain ⟨d1, d2⟩ := ha _ hdone hyes
          rw [d2]
          rcases hr with hr | rfl
          · exact ha r hr hs
          · exact ⟨d1, d2⟩
        · have hfresh : ∀ r' ∈ refs.take k, r' ≠ refs[k] := fun r' hr' he => hdone (he ▸ hr')
          have hkold : Dict.get? refs[k] overs = Dict.get? refs[k] orig :=
            hc _ (fun r' hr' _ => ⟨(hfresh r' hr').symm, (hne r').symm⟩)
          have hbold : Dict.get? (basename refs[k]) overs = none := by
            rw [hc, hkeys _ hmem hyes]
            intro r' hr' hs'
            refine ⟨fun he => ?_, fun he => ?_⟩
            · exact (basename_spec refs[k]).1 (he ▸ hs')
            · exact hfresh r' hr' (hinj _ (hsub r' hr') _ hmem he.symm)
          cases hv : Dict.get? refs[k] overs with
          | none =>
            simp only
            rcases hr with hr | rfl
            · exact ha r hr hs
            · exact ⟨by rw [hbold, ← hkold, hv], hv⟩
          | some v =>
            simp only
            rw [Dict.get?_set, Dict.get?_set, Dict.get?_erase hok, Dict.get?_erase hok]
            rcases hr with hr | rfl
            · have hrk : r ≠ refs[k] := hfresh r hr
              have hbb : basename r ≠ basename refs[k] := fun he => hrk (hinj _ (hsub r hr) _ hmem he)
              have hrb : r ≠ basename refs[k] := fun he => (basename_spec refs[k]).1 (he ▸ hs)
              obtain ⟨a1, a2⟩ := ha r hr hs
              simp only [hbb, hne r, hrb, hrk, Ne.symm hbb, Ne.symm (hne r), Ne.symm hrb, Ne.symm hrk, if_false]
              exact ⟨a1, a2⟩
            · simp only [if_true]
              rw [← hkold, hv]
              exact ⟨rfl, by simp [Ne.symm (hne refs[k]), hne refs[k]]⟩
      · intro q hq
        have hq1 := hq refs[k] (by rw [htk]; exact List.mem_append_right _ (List.mem_singleton.2 rfl)) hyes
        have hq2 := hc q (fun r hr => hq r (by rw [htk]; exact List.mem_append_left _ hr))
        cases hv : Dict.get? refs[k] overs with
        | none => exact hq2
        | some v =>
          simp only
          rw [Dict.get?_set, Dict.get?_erase hok]
          simp only [hq1.1, hq1.2, Ne.symm hq1.1, Ne.symm hq1.2, if_false]
          exact hq2

/-- C52 (part: the base names are distinct and not used as keys already).  The overrides of a
reference with a directory are found under its base name, all others stay.  Missing: clashing base
names, where overrides are lost (`C52_clash_violation`). -/
theorem C52_overrides_partial {V : Type} (refs : List Str) (overs : Dict Str V) (ho : Dict.Ok overs)
    (hinj : ∀ r ∈ refs, ∀ r' ∈ refs, ∀ b, IsBase r b → IsBase r' b → r = r')
    (hkeys : ∀ r ∈ refs, '/' ∈ r → ∀ b, IsBase r b → Dict.get? b overs = none) :
    (∀ r ∈ refs, '/' ∈ r → ∀ b, IsBase r b → Dict.get? b (tempRefs refs overs).2 = Dict.get? r overs ∧
      Dict.get? r (tempRefs refs overs).2 = none) ∧
    (∀ q, (∀ r ∈ refs, '/' ∈ r → q ≠ r ∧ ¬ IsBase r q) →
      Dict.get? q (tempRefs refs overs).2 = Dict.get? q overs) := by
  have huniq : ∀ r b, IsBase r b → b = basename r := by
    intro r b hb
    have h' := basename_spec r
    rcases hb with ⟨h0, rfl | ⟨d, hd⟩⟩
    · rw [(basename_eq_iff r).2 h0]
    · unfold basename
      rw [hd, rpartition?_char h0]
  obtain ⟨h1, h2⟩ := tempLoop_overs overs ho refs
    (fun r hr r' hr' he => hinj r hr r' hr' _ (basename_spec r) (he ▸ basename_spec r'))
    (fun r hr hs => hkeys r hr hs _ (basename_spec r)) refs.length 0 0 (by omega) (Nat.le_refl _) refs rfl
    (fun _ _ => rfl) overs ho (fun r hr => by simp at hr) (fun _ _ => rfl)
  constructor
  · intro r hr hs b hb
    rw [huniq r b hb]
    exact h1 r hr hs
  · intro q hq
    exact h2 q (fun r hr hs => ⟨(hq r hr hs).1, fun he => (hq r hr hs).2 (he ▸ basename_spec r)⟩)

example : (tempRefs ["x/a.nxt".toList, "c.nxt".toList] [("x/a.nxt".toList, 1), ("c.nxt".toList, 2)]).2 =
    [("c.nxt".toList, 2), ("a.nxt".toList, 1)] := by decide +kernel

/-- C52, violated: of two references with one base name the overrides of the first are lost. -/
theorem C52_clash_violation : (tempRefs ["x/a.nxt".toList, "y/a.nxt".toList]
    [("x/a.nxt".toList, 1), ("y/a.nxt".toList, 2)]) =
    (["a.nxt".toList, "a.nxt".toList], [("a.nxt".toList, 2)]) := by decide +kernel

/-- C52: the file of a base name holds the strongest layer with that base name; weaker layers with
the same base name are lost. -/
theorem C52_files {V : Type} (layers : List (Str × V)) (b : Str) :
    (∀ l ∈ layers, IsBase l.1 b → ∃ before l' after, layers = before ++ l' :: after ∧ IsBase l'.1 b ∧
      (∀ x ∈ before, ¬ IsBase x.1 b) ∧ Dict.get? b (tempFiles layers) = some l'.2) := by
  have huniq : ∀ r b, IsBase r b ↔ basename r = b := by
    intro r b
    refine ⟨fun hb => ?_, fun he => he ▸ basename_spec r⟩
    rcases hb with ⟨h0, rfl | ⟨d, hd⟩⟩
    · exact (basename_eq_iff r).2 h0
    · unfold basename
      rw [hd, rpartition?_char h0]
  induction layers with
  | nil => exact fun _ h => nomatch h
  | cons x xs ih =>
    intro l hl hb
    have e : tempFiles (x :: xs) = Dict.set (basename x.1) x.2 (tempFiles xs) := by
      simp [tempFiles, List.foldl_append]
    rw [e, Dict.get?_set]
    by_cases hx : basename x.1 = b
    · refine ⟨[], x, xs, rfl, (huniq _ _).2 hx, (fun _ h => nomatch h), by simp [hx]⟩
    · have hl' : l ∈ xs := by
        rcases List.mem_cons.1 hl with rfl | h
        · exact absurd ((huniq _ _).1 hb) hx
        · exact h
      obtain ⟨bf, l', af, h1, h2, h3, h4⟩ := ih l hl' hb
      refine ⟨x :: bf, l', af, by rw [h1]; rfl, h2, ?_, ?_⟩
      · intro y hy
        rcases List.mem_cons.1 hy with rfl | hy
        · exact fun h => hx ((huniq _ _).1 h)
        · exact h3 y hy
      · rw [if_neg (fun h => hx h.symm)]; exact h4

example : tempFiles [("/p/top.nxt".toList, 0), ("/p/x/a.nxt".toList, 1), ("/p/y/a.nxt".toList, 2)] =
    [("a.nxt".toList, 1), ("top.nxt".toList, 0)] := by decide +kernel

end Nxt.Props
