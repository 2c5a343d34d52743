import Verif.Spec.Resolve
import Verif.Props.Tokens
import Verif.Lemmas.Path
/-!
# Lemmas about token resolution
-/
namespace Nxt.Resolve
open Py Spec Tokens

/-! ## A larger recursion limit does not change an outcome -/

/-- `b` is the outcome `a`, unless `a` exceeded the limit. -/
def Out.Le {α : Type} (a b : Out α) : Prop := a = .deep ∨ a = b

theorem Out.Le.rfl {α : Type} {a : Out α} : Out.Le a a := .inr (Eq.refl _)

theorem Out.Le.trans {α : Type} {a b c : Out α} (h1 : Out.Le a b) (h2 : Out.Le b c) : Out.Le a c := by
  rcases h1 with h | h
  · exact .inl h
  · exact h ▸ h2

theorem Out.Le.bind {α β : Type} {a b : Out α} {k k' : α → Out β} (h : Out.Le a b)
    (hk : ∀ x, Out.Le (k x) (k' x)) : Out.Le (a.bind k) (b.bind k') := by
  rcases h with rfl | rfl
  · exact .inl (Eq.refl _)
  · cases a with
    | deep => exact .inl (Eq.refl _)
    | raised => exact .inr (Eq.refl _)
    | ok x => exact hk x

variable {N : Type} (g : Graph N)

theorem attrValue_le {rec rec' : N → Str → Out Str} (h : ∀ n t, Out.Le (rec n t) (rec' n t)) (node : Option N)
    (a : Str) : Out.Le (attrValue g rec node a) (attrValue g rec' node a) := by
  unfold attrValue
  split
  · exact .rfl
  · split
    · exact .rfl
    · exact .rfl
    · split
      · exact .rfl
      · exact h _ _
    · exact h _ _
    · exact .rfl

theorem attrRef_le {rec rec' : N → Str → Out Str} (h : ∀ n t, Out.Le (rec n t) (rec' n t)) (n : N)
    (a : Str) : Out.Le (attrRef g rec n a) (attrRef g rec' n a) := by
  unfold attrRef
  apply (h n a).bind
  intro ref
  have go : ∀ src a : Str, Out.Le
      (if g.pathOf n = [] ∧ ¬ startsWith src ['/'] then .raised
        else match Path.expandRelative (some src) (g.pathOf n) with
          | none => .ok []
          | some q => attrValue g rec (g.lookup q) a)
      (if g.pathOf n = [] ∧ ¬ startsWith src ['/'] then .raised
        else match Path.expandRelative (some src) (g.pathOf n) with
          | none => .ok []
          | some q => attrValue g rec' (g.lookup q) a) := by
    intro src a
    split
    · exact .rfl
    · split
      · exact .rfl
      · exact attrValue_le g h _ _
  dsimp only
  split
  · split
    · exact go _ _
    · split
      · exact go _ _
      · exact .rfl
  · split
    · exact go _ _
    · exact .rfl

theorem filePathToken_le {rec rec' : N → Str → Out Str} (h : ∀ n t, Out.Le (rec n t) (rec' n t)) (n : N)
    (a : Str) : Out.Le (filePathToken g rec n a) (filePathToken g rec' n a) :=
  (h n a).bind fun _ => .rfl

theorem tokenRep_le {rec rec' : N → Str → Out Str} (h : ∀ n t, Out.Le (rec n t) (rec' n t)) (n : N)
    (t : Str) : Out.Le (tokenRep g rec n t) (tokenRep g rec' n t) := by
  unfold tokenRep
  dsimp only
  split
  · exact .rfl
  · exact .rfl
  · exact (h _ _).bind fun _ => (filePathToken_le g h _ _).bind fun _ => .rfl
  · exact filePathToken_le g h _ _
  · apply (h _ _).bind
    intro r
    split
    · exact .rfl
    · exact h _ _
  · exact .rfl
  · exact .rfl
  · exact attrRef_le g h _ _

/-- The fold over the tokens of a text, for any way of finding replacements. -/
def applyTokens (rep : Str → Out Str) (ts : List Str) (acc : Out Str) : Out Str :=
  ts.foldl (fun acc t => acc.bind fun resolved => (rep t).bind fun r => .ok (replace resolved t r)) acc

theorem applyTokens_le {rep rep' : Str → Out Str} (h : ∀ t, Out.Le (rep t) (rep' t)) (ts : List Str)
    {a b : Out Str} (hab : Out.Le a b) : Out.Le (applyTokens rep ts a) (applyTokens rep' ts b) := by
  induction ts generalizing a b with
  | nil => exact hab
  | cons t ts ih => exact ih (hab.bind fun _ => (h t).bind fun _ => .rfl)

theorem resolve_succ (f : Nat) (n : N) (text : Str) :
    resolve g (f + 1) n text = applyTokens (tokenRep g (resolve g f) n) (standaloneAll text) (.ok text) := by
  rw [resolve, Props.C03_attr_filters_nothing _ _ (by simp [ALL_PREFIXES])]
  rfl

theorem resolve_le_succ (f : Nat) : ∀ n text, Out.Le (resolve g f n text) (resolve g (f + 1) n text) := by
  induction f with
  | zero => exact fun n text => .inl rfl
  | succ f ih =>
    intro n text
    rw [resolve_succ, resolve_succ g (f + 1)]
    exact applyTokens_le (fun t => tokenRep_le g ih n t) _ .rfl

theorem resolve_le {f f' : Nat} (h : f ≤ f') (n : N) (text : Str) :
    Out.Le (resolve g f n text) (resolve g f' n text) := by
  induction h with
  | refl => exact .rfl
  | step _ ih => exact ih.trans (resolve_le_succ g _ n text)

theorem resolve_det {f f' : Nat} {n : N} {text : Str} {a b : Out Str} (h1 : resolve g f n text = a)
    (h2 : resolve g f' n text = b) (ha : a ≠ .deep) (hb : b ≠ .deep) : a = b := by
  rcases Nat.le_total f f' with h | h
  · rcases resolve_le g h n text with e | e
    · exact absurd (h1 ▸ e) ha
    · rw [← h1, e, h2]
  · rcases resolve_le g h n text with e | e
    · exact absurd (h2 ▸ e) hb
    · rw [← h2, e, h1]

theorem means_det {n : N} {text a b : Str} (h1 : Means g n text a) (h2 : Means g n text b) : a = b := by
  obtain ⟨f, h1⟩ := h1
  obtain ⟨f', h2⟩ := h2
  have := resolve_det g h1 h2 (fun h => nomatch h) (fun h => nomatch h)
  injection this

/-! ## The fold over the tokens -/

theorem applyTokens_deep (rep : Str → Out Str) (ts : List Str) : applyTokens rep ts .deep = .deep := by
  induction ts with
  | nil => rfl
  | cons t ts ih => exact ih

theorem applyTokens_raised (rep : Str → Out Str) (ts : List Str) : applyTokens rep ts .raised = .raised := by
  induction ts with
  | nil => rfl
  | cons t ts ih => exact ih

theorem applyTokens_cons (rep : Str → Out Str) (t : Str) (ts : List Str) (s : Str) :
    applyTokens rep (t :: ts) (.ok s) = applyTokens rep ts ((rep t).bind fun r => .ok (replace s t r)) := rfl

/-- Nothing exceeds the limit when no token does. -/
theorem applyTokens_not_deep {rep : Str → Out Str} {ts : List Str} (h : ∀ t ∈ ts, rep t ≠ .deep) (s : Str) :
    applyTokens rep ts (.ok s) ≠ .deep := by
  induction ts generalizing s with
  | nil => exact fun h => nomatch h
  | cons t ts ih =>
    rw [applyTokens_cons]
    cases ht : rep t with
    | deep => exact absurd ht (h t (List.mem_cons_self ..))
    | raised => exact fun hh => by rw [show Out.bind (β := Str) .raised _ = .raised from rfl, applyTokens_raised] at hh; cases hh
    | ok r => exact ih (fun t ht => h t (List.mem_cons_of_mem _ ht)) _

theorem applyTokens_not_raised {rep : Str → Out Str} {ts : List Str} (h : ∀ t ∈ ts, rep t ≠ .raised) (s : Str) :
    applyTokens rep ts (.ok s) ≠ .raised := by
  induction ts generalizing s with
  | nil => exact fun h => nomatch h
  | cons t ts ih =>
    rw [applyTokens_cons]
    cases ht : rep t with
    | raised => exact absurd ht (h t (List.mem_cons_self ..))
    | deep => exact fun hh => by rw [show Out.bind (β := Str) .deep _ = .deep from rfl, applyTokens_deep] at hh; cases hh
    | ok r => exact ih (fun t ht => h t (List.mem_cons_of_mem _ ht)) _

/-- A returned text means that every token had a replacement. -/
theorem applyTokens_ok {rep : Str → Out Str} {ts : List Str} {s out : Str} (h : applyTokens rep ts (.ok s) = .ok out) :
    ∀ t ∈ ts, ∃ r, rep t = .ok r := by
  induction ts generalizing s with
  | nil => simp
  | cons t ts ih =>
    rw [applyTokens_cons] at h
    cases ht : rep t with
    | deep => rw [ht, show Out.bind (β := Str) .deep _ = .deep from rfl, applyTokens_deep] at h; cases h
    | raised => rw [ht, show Out.bind (β := Str) .raised _ = .raised from rfl, applyTokens_raised] at h; cases h
    | ok r =>
      rw [ht] at h
      intro t' ht'
      rcases List.mem_cons.1 ht' with rfl | h'
      · exact ⟨r, ht⟩
      · exact ih h t' h'

/-- With a replacement for every token the fold is plain sequential replacing. -/
theorem applyTokens_eq {rep : Str → Out Str} {m : Str → Str} {ts : List Str} (h : ∀ t ∈ ts, rep t = .ok (m t)) (s : Str) :
    applyTokens rep ts (.ok s) = .ok (ts.foldl (fun s t => replace s t (m t)) s) := by
  induction ts generalizing s with
  | nil => rfl
  | cons t ts ih =>
    rw [applyTokens_cons, h t (List.mem_cons_self ..)]
    exact ih (fun t ht => h t (List.mem_cons_of_mem _ ht)) _

/-! ## Token kinds -/

theorem content_token (c : Str) : getTokenContent (['$', '{'] ++ c ++ ['}']) = c := Props.C01_token_roundtrip c

theorem find_plugin_none {plugins : List (Plugin N)} {c : Str} (h : ∀ p ∈ plugins, p.detect c = false) :
    plugins.find? (fun p => p.detect c) = none := by
  rw [List.find?_eq_none]
  intro p hp
  simp [h p hp]

theorem startsWith_file (u : Str) : startsWith ("file::".toList ++ u) "file::".toList = true := startsWith_append _ _

theorem kind_attr {plugins : List (Plugin N)} {c : Str} (h : AttrContent c) (hp : ∀ p ∈ plugins, p.detect c = false) :
    tokenKind plugins c = .attr := by
  obtain ⟨h0, h1, h2, h3, h4, h5⟩ := h
  have s1 : startsWith c "file::".toList = false := by
    rw [Bool.eq_false_iff]; intro h; obtain ⟨u, hu⟩ := startsWith_iff.1 h; exact h1 u hu
  have s2 : startsWith c "path::".toList = false := by
    rw [Bool.eq_false_iff]; intro h; obtain ⟨u, hu⟩ := startsWith_iff.1 h; exact h2 u hu
  have s3 : startsWith c "contents::".toList = false := by
    rw [Bool.eq_false_iff]; intro h; obtain ⟨u, hu⟩ := startsWith_iff.1 h; exact h3 u hu
  unfold tokenKind
  rw [if_neg h0, find_plugin_none hp]
  simp only [s1, s2, s3, if_neg h4, if_neg h5]
  simp

theorem kind_file {plugins : List (Plugin N)} {u : Str} (hp : ∀ p ∈ plugins, p.detect ("file::".toList ++ u) = false) :
    tokenKind plugins ("file::".toList ++ u) = .file := by
  unfold tokenKind
  rw [if_neg (by simp), find_plugin_none hp]
  simp only [startsWith_append, if_true]

theorem kind_filepath {plugins : List (Plugin N)} {u : Str} (hp : ∀ p ∈ plugins, p.detect ("path::".toList ++ u) = false) :
    tokenKind plugins ("path::".toList ++ u) = .filepath := by
  unfold tokenKind
  rw [if_neg (by simp), find_plugin_none hp]
  rw [show startsWith ("path::".toList ++ u) "file::".toList = false from rfl]
  simp only [startsWith_append, if_true]
  rfl

theorem kind_contents {plugins : List (Plugin N)} {u : Str} (hp : ∀ p ∈ plugins, p.detect ("contents::".toList ++ u) = false) :
    tokenKind plugins ("contents::".toList ++ u) = .contents := by
  unfold tokenKind
  rw [if_neg (by simp), find_plugin_none hp]
  rw [show startsWith ("contents::".toList ++ u) "file::".toList = false from rfl,
    show startsWith ("contents::".toList ++ u) "path::".toList = false from rfl]
  simp only [startsWith_append, if_true]
  rfl

theorem kind_path {plugins : List (Plugin N)} (hp : ∀ p ∈ plugins, p.detect "_nxtpath".toList = false) :
    tokenKind plugins "_nxtpath".toList = .path := by
  unfold tokenKind
  rw [if_neg (by simp), find_plugin_none hp]
  rfl

theorem kind_color {plugins : List (Plugin N)} (hp : ∀ p ∈ plugins, p.detect "_nxtcolor".toList = false) :
    tokenKind plugins "_nxtcolor".toList = .color := by
  unfold tokenKind
  rw [if_neg (by simp), find_plugin_none hp]
  rfl

/-- Every content is of exactly one kind. -/
theorem content_cases (plugins : List (Plugin N)) (c : Str) :
    c = [] ∨ (∃ p, tokenKind plugins c = .plugin p) ∨ (∀ p ∈ plugins, p.detect c = false) ∧
      (AttrContent c ∨ (∃ u, c = "file::".toList ++ u) ∨ (∃ u, c = "path::".toList ++ u) ∨
        (∃ u, c = "contents::".toList ++ u) ∨ c = "_nxtpath".toList ∨ c = "_nxtcolor".toList) := by
  by_cases h0 : c = []
  · exact .inl h0
  right
  cases hf : plugins.find? (fun p => p.detect c) with
  | some p =>
    left
    exact ⟨p, by unfold tokenKind; rw [if_neg h0, hf]⟩
  | none =>
    right
    rw [List.find?_eq_none] at hf
    refine ⟨fun p hp => by simpa using hf p hp, ?_⟩
    by_cases h1 : ∃ u, c = "file::".toList ++ u
    · exact .inr (.inl h1)
    by_cases h2 : ∃ u, c = "path::".toList ++ u
    · exact .inr (.inr (.inl h2))
    by_cases h3 : ∃ u, c = "contents::".toList ++ u
    · exact .inr (.inr (.inr (.inl h3)))
    by_cases h4 : c = "_nxtpath".toList
    · exact .inr (.inr (.inr (.inr (.inl h4))))
    by_cases h5 : c = "_nxtcolor".toList
    · exact .inr (.inr (.inr (.inr (.inr h5))))
    exact .inl ⟨h0, fun u h => h1 ⟨u, h⟩, fun u h => h2 ⟨u, h⟩, fun u h => h3 ⟨u, h⟩, h4, h5⟩

/-! ## References -/

/-- The resolver's splitting of a reference is the specified one. -/
theorem partition_ref (r : Str) :
    (∃ p a, SplitRef r p a ∧ Path.pathAttrPartition r = (p, some a)) ∨
    ((∀ p a, ¬ SplitRef r p a) ∧ ∀ p a, Path.pathAttrPartition r = (p, some a) → p = [] ∨ a = []) := by
  unfold Path.pathAttrPartition
  split
  · rename_i h
    right
    refine ⟨?_, fun p a hh => by cases hh⟩
    rintro p a ⟨rfl, _⟩
    apply h
    simp [Path.isAttrPath, Path.ATTR_SEP]
  · split
    · rename_i h
      right
      refine ⟨?_, fun p a hh => by cases hh⟩
      rintro p a ⟨rfl, hd, _, ha⟩
      rw [List.getLast?_append, List.getLast?_eq_some_getLast ha] at h
      simp only [Option.some_or, Option.some.injEq] at h
      have hm := List.getLast_mem ha
      rw [h] at hm
      exact hd hm
    · split
      · rename_i a b hab
        obtain ⟨he, hb⟩ := rpartition?_char_some hab
        by_cases hn : a = [] ∨ b = []
        · right
          refine ⟨?_, fun p' a' hh => by
            simp only [Prod.mk.injEq, Option.some.injEq] at hh
            obtain ⟨rfl, rfl⟩ := hh; exact hn⟩
          rintro p' a' ⟨hr, hd, hp, ha⟩
          have h2 : rpartition? [Path.ATTR_SEP] r = some (p', a') := by
            rw [hr, List.append_assoc]
            exact rpartition?_char hd
          rw [hab] at h2
          simp only [Option.some.injEq, Prod.mk.injEq] at h2
          obtain ⟨rfl, rfl⟩ := h2
          rcases hn with h | h
          · exact hp h
          · exact ha h
        · left
          rw [not_or] at hn
          refine ⟨a, b, ⟨by rw [he, List.append_assoc]; rfl, hb, hn.1, hn.2⟩, rfl⟩
      · rename_i h0 h1 h2
        right
        refine ⟨?_, fun p a hh => by
          simp only [Prod.mk.injEq, Option.some.injEq] at hh
          exact .inl hh.1.symm⟩
        rintro p a ⟨rfl, _⟩
        rw [rpartition?_char_none_iff] at h2
        exact h2 (by simp [Path.ATTR_SEP])

theorem splitRef_unique {r p a p' a' : Str} (h : SplitRef r p a) (h' : SplitRef r p' a') : p = p' ∧ a = a' := by
  have e1 : rpartition? ['.'] r = some (p, a) := by rw [h.1, List.append_assoc]; exact rpartition?_char h.2.1
  have e2 : rpartition? ['.'] r = some (p', a') := by rw [h'.1, List.append_assoc]; exact rpartition?_char h'.2.1
  rw [e1] at e2
  simpa using e2

theorem names_unique {n : N} {r q a q' a' : Str} (h : RefNames g n r q a) (h' : RefNames g n r q' a') : q = q' ∧ a = a' := by
  cases h with
  | other hs he =>
    cases h' with
    | other hs' he' =>
      obtain ⟨rfl, rfl⟩ := splitRef_unique hs hs'
      rw [he] at he'
      exact ⟨by simpa using he', rfl⟩
    | own hn _ => exact absurd hs (hn _ _)
  | own hn he =>
    cases h' with
    | other hs' _ => exact absurd hs' (hn _ _)
    | own _ he' =>
      rw [he] at he'
      exact ⟨by simpa using he', rfl⟩

theorem expandRelative_some (p s : Str) (h : p ≠ []) : ∃ q, Path.expandRelative (some p) s = some q := by
  cases p with
  | nil => exact absurd rfl h
  | cons c cs =>
    simp only [Path.expandRelative]
    split
    · exact ⟨_, rfl⟩
    · split
      · exact ⟨_, rfl⟩
      · exact ⟨_, rfl⟩

/-- A reference of a node with a path names some attribute of some path. -/
theorem names_exists (n : N) (hn : g.pathOf n ≠ []) (r : Str) : ∃ q a, RefNames g n r q a := by
  rcases partition_ref r with ⟨p, a, hs, _⟩ | ⟨hno, _⟩
  · obtain ⟨q, hq⟩ := expandRelative_some p (g.pathOf n) hs.2.2.1
    exact ⟨q, a, .other hs hq⟩
  · obtain ⟨q, hq⟩ := expandRelative_some (g.pathOf n) (g.pathOf n) hn
    exact ⟨q, r, .own hno hq⟩

/-- For a node with a path the reference is looked up where it points to. -/
theorem attrRef_names {rec : N → Str → Out Str} {n : N} {c r q a : Str} (hn : g.pathOf n ≠ []) (hr : rec n c = .ok r)
    (h : RefNames g n r q a) : attrRef g rec n c = attrValue g rec (g.lookup q) a := by
  unfold attrRef
  rw [hr]
  simp only [Out.bind]
  cases h with
  | other hs he =>
    rcases partition_ref r with ⟨p', a', hs', hp⟩ | ⟨hno, _⟩
    · obtain ⟨rfl, rfl⟩ := splitRef_unique hs hs'
      rw [hp]
      simp only
      rw [if_pos ⟨hs.2.2.1, hs.2.2.2⟩, if_neg (fun h => hn h.1), he]
    · exact absurd hs (hno _ _)
  | own hno he =>
    rcases partition_ref r with ⟨p', a', hs', hp⟩ | ⟨_, hp⟩
    · exact absurd hs' (hno _ _)
    · split
      · rename_i p a heq
        have := hp p a heq
        rw [if_neg (fun h => by rcases this with h' | h'; exact h.1 h'; exact h.2 h'), if_pos hn, if_neg (fun h => hn h.1), he]
      · rw [if_pos hn, if_neg (fun h => hn h.1), he]

theorem attrValue_of_text {rec : N → Str → Out Str} {m : N} {a v : Str} (h : ValueText g m a v) :
    attrValue g rec (some m) a = rec m v := by
  unfold attrValue
  rcases h with ⟨h, hv⟩ | h
  · simp only [h, if_neg hv]
  · simp only [h]

/-! ## Termination -/

theorem mem_standalone {text c : Str} (h : HasToken g text c) : ['$', '{'] ++ c ++ ['}'] ∈ standaloneAll text := by
  obtain ⟨⟨ts, hp, hm⟩, _⟩ := h
  rw [Props.C02_standalone_exact hp]
  exact hm

theorem hasToken_of_mem {text t : Str} (h : t ∈ standaloneAll text) :
    ∃ c ts, t = ['$', '{'] ++ c ++ ['}'] ∧ Parse text ts true ∧ t ∈ ts := by
  obtain ⟨_, ⟨c, hc⟩, _⟩ := Props.C02_standalone_sound h
  obtain ⟨ts, ok, hp⟩ := exists_parse text
  have hx := Props.C02_standalone_exact hp
  cases ok with
  | false => rw [hx] at h; simp at h
  | true => exact ⟨c, ts, hc, hp, by rw [hx] at h; simpa using h⟩

/-- If everything a text needs resolves (or fails otherwise) within some limit, so does each of its
tokens. -/
theorem token_not_deep {n : N} {text t : Str} (ht : t ∈ standaloneAll text)
    (ih : ∀ y, Needs g (n, text) y → ∃ f, resolve g f y.1 y.2 ≠ .deep) :
    ∃ f, ∀ f' ≥ f, tokenRep g (resolve g f') n t ≠ .deep := by
  obtain ⟨c, ts, rfl, hp, hm⟩ := hasToken_of_mem ht
  have lift : ∀ {f f' : Nat} {m : N} {s : Str}, f ≤ f' → resolve g f m s ≠ .deep →
      resolve g f' m s = resolve g f m s := by
    intro f f' m s hle hd
    rcases resolve_le g hle m s with h | h
    · exact absurd h hd
    · exact h.symm
  simp only [tokenRep, content_token]
  rcases content_cases g.plugins c with rfl | ⟨p, hk⟩ | ⟨hnp, hc⟩
  · exact ⟨0, fun f _ => by simp [tokenKind]⟩
  · exact ⟨0, fun f _ => by rw [hk]; exact fun h => nomatch h⟩
  have hT : HasToken g text c := ⟨⟨ts, hp, hm⟩, hnp⟩
  rcases hc with hc | ⟨u, rfl⟩ | ⟨u, rfl⟩ | ⟨u, rfl⟩ | rfl | rfl
  · rw [kind_attr hc hnp]
    obtain ⟨f1, h1⟩ := ih _ (.attrInner hT hc)
    simp only at h1
    cases hr : resolve g f1 n c with
    | deep => exact absurd hr h1
    | raised =>
      refine ⟨f1, fun f' hf => ?_⟩
      simp only [attrRef, lift hf h1, hr]
      exact fun h => nomatch h
    | ok r =>
      by_cases hn : g.pathOf n = []
      · -- no path: either the local value, or an absolute reference
        rcases partition_ref r with ⟨p, a, hs, hpa⟩ | ⟨hno, hpa⟩
        · by_cases hsl : startsWith p ['/'] = true
          · obtain ⟨q, hq⟩ := expandRelative_some p (g.pathOf n) hs.2.2.1
            have hgo : ∀ f' ≥ f1, attrRef g (resolve g f') n c = attrValue g (resolve g f') (g.lookup q) a := by
              intro f' hf
              simp only [attrRef, lift hf h1, hr, Out.bind, hpa]
              rw [if_pos ⟨hs.2.2.1, hs.2.2.2⟩, if_neg (fun h => h.2 hsl), hq]
            have key : ∃ f2, ∀ f' ≥ f2, attrValue g (resolve g f') (g.lookup q) a ≠ .deep := by
              cases hl : g.lookup q with
              | none => exact ⟨0, fun f' _ => by simp [attrValue]⟩
              | some m =>
                cases ha : g.attr m a with
                | missing => exact ⟨0, fun f' _ => by simp [attrValue, ha]⟩
                | none => exact ⟨0, fun f' _ => by simp [attrValue, ha]⟩
                | str v =>
                  by_cases hv : v = []
                  · exact ⟨0, fun f' _ => by simp [attrValue, ha, hv]⟩
                  · obtain ⟨f2, h2⟩ := ih _ (.attrValue hT hc ⟨f1, hr⟩ (.other hs hq) hl (.inl ⟨ha, hv⟩))
                    exact ⟨f2, fun f' hf => by simp only [attrValue, ha, if_neg hv, lift hf h2]; exact h2⟩
                | other b v =>
                  cases b with
                  | true =>
                    obtain ⟨f2, h2⟩ := ih _ (.attrValue hT hc ⟨f1, hr⟩ (.other hs hq) hl (.inr ha))
                    exact ⟨f2, fun f' hf => by simp only [attrValue, ha, lift hf h2]; exact h2⟩
                  | false => exact ⟨0, fun f' _ => by simp only [attrValue, ha]; split <;> exact fun h => nomatch h⟩
            obtain ⟨f2, h2⟩ := key
            refine ⟨max f1 f2, fun f' hf => ?_⟩
            rw [hgo f' (by omega)]
            exact h2 f' (by omega)
          · refine ⟨f1, fun f' hf => ?_⟩
            simp only [attrRef, lift hf h1, hr, Out.bind, hpa]
            rw [if_pos ⟨hs.2.2.1, hs.2.2.2⟩, if_pos ⟨hn, hsl⟩]
            exact fun h => nomatch h
        · refine ⟨f1, fun f' hf => ?_⟩
          have hloc : localValue g n r ≠ .deep := by
            unfold localValue
            simp only
            split
            · exact fun h => nomatch h
            · exact fun h => nomatch h
            · split <;> exact fun h => nomatch h
            · exact fun h => nomatch h
            · exact fun h => nomatch h
          simp only [attrRef, lift hf h1, hr, Out.bind]
          split
          · rename_i p a heq
            have := hpa p a heq
            rw [if_neg (fun h => by rcases this with h' | h'; exact h.1 h'; exact h.2 h'), if_neg (fun h => h hn)]
            exact hloc
          · rw [if_neg (fun h => h hn)]
            exact hloc
      · obtain ⟨q, a, hN⟩ := names_exists g n hn r
        have key : ∃ f2, ∀ f' ≥ f2, attrValue g (resolve g f') (g.lookup q) a ≠ .deep := by
          cases hl : g.lookup q with
          | none => exact ⟨0, fun f' _ => by simp [attrValue]⟩
          | some m =>
            cases ha : g.attr m a with
            | missing => exact ⟨0, fun f' _ => by simp [attrValue, ha]⟩
            | none => exact ⟨0, fun f' _ => by simp [attrValue, ha]⟩
            | str v =>
              by_cases hv : v = []
              · exact ⟨0, fun f' _ => by simp [attrValue, ha, hv]⟩
              · obtain ⟨f2, h2⟩ := ih _ (.attrValue hT hc ⟨f1, hr⟩ hN hl (.inl ⟨ha, hv⟩))
                exact ⟨f2, fun f' hf => by simp only [attrValue, ha, if_neg hv, lift hf h2]; exact h2⟩
            | other b v =>
              cases b with
              | true =>
                obtain ⟨f2, h2⟩ := ih _ (.attrValue hT hc ⟨f1, hr⟩ hN hl (.inr ha))
                exact ⟨f2, fun f' hf => by simp only [attrValue, ha, lift hf h2]; exact h2⟩
              | false => exact ⟨0, fun f' _ => by simp only [attrValue, ha]; split <;> exact fun h => nomatch h⟩
        obtain ⟨f2, h2⟩ := key
        refine ⟨max f1 f2, fun f' hf => ?_⟩
        rw [attrRef_names g hn (by rw [lift (by omega) h1, hr]) hN]
        exact h2 f' (by omega)
  · rw [kind_file hnp]
    simp only [List.drop_left]
    obtain ⟨f1, h1⟩ := ih _ (.fileInner hT)
    simp only at h1
    cases hr : resolve g f1 n u with
    | deep => exact absurd hr h1
    | raised =>
      refine ⟨f1, fun f' hf => ?_⟩
      simp only [fileToken, lift hf h1, hr]
      exact fun h => nomatch h
    | ok r =>
      obtain ⟨f2, h2⟩ := ih _ (.fileAgain hT ⟨f1, hr⟩)
      simp only at h2
      refine ⟨max f1 f2, fun f' hf => ?_⟩
      simp only [fileToken, filePathToken, lift (show f1 ≤ f' by omega) h1, lift (show f2 ≤ f' by omega) h2, hr, Out.bind]
      cases hr2 : resolve g f2 n r with
      | deep => exact absurd hr2 h2
      | raised => exact fun h => nomatch h
      | ok s => exact fun h => nomatch h
  · rw [kind_filepath hnp]
    simp only [List.drop_left]
    obtain ⟨f1, h1⟩ := ih _ (.pathInner hT)
    simp only at h1
    refine ⟨f1, fun f' hf => ?_⟩
    simp only [filePathToken, lift hf h1]
    cases hr : resolve g f1 n u with
    | deep => exact absurd hr h1
    | raised => exact fun h => nomatch h
    | ok s => exact fun h => nomatch h
  · rw [kind_contents hnp]
    simp only [List.drop_left]
    obtain ⟨f1, h1⟩ := ih _ (.contentsInner hT)
    simp only at h1
    cases hr : resolve g f1 n u with
    | deep => exact absurd hr h1
    | raised =>
      refine ⟨f1, fun f' hf => ?_⟩
      simp only [contentsToken, lift hf h1, hr]
      exact fun h => nomatch h
    | ok r =>
      cases hs : g.contents r with
      | none =>
        refine ⟨f1, fun f' hf => ?_⟩
        simp only [contentsToken, lift hf h1, hr, Out.bind, hs]
        exact fun h => nomatch h
      | some s =>
        obtain ⟨f2, h2⟩ := ih _ (.contentsText hT ⟨f1, hr⟩ hs)
        simp only at h2
        refine ⟨max f1 f2, fun f' hf => ?_⟩
        simp only [contentsToken, lift (show f1 ≤ f' by omega) h1, lift (show f2 ≤ f' by omega) h2, hr, Out.bind, hs]
        exact h2
  · rw [kind_path hnp]
    exact ⟨0, fun _ _ h => nomatch h⟩
  · rw [kind_color hnp]
    exact ⟨0, fun _ _ h => nomatch h⟩

theorem exists_bound {α : Type} {P : α → Nat → Prop} (l : List α) (h : ∀ a ∈ l, ∃ f, ∀ f' ≥ f, P a f') :
    ∃ f, ∀ f' ≥ f, ∀ a ∈ l, P a f' := by
  induction l with
  | nil => exact ⟨0, by simp⟩
  | cons a l ih =>
    obtain ⟨f1, h1⟩ := h a (List.mem_cons_self ..)
    obtain ⟨f2, h2⟩ := ih fun b hb => h b (List.mem_cons_of_mem _ hb)
    refine ⟨max f1 f2, fun f' hf b hb => ?_⟩
    rcases List.mem_cons.1 hb with rfl | hb
    · exact h1 f' (by omega)
    · exact h2 f' (by omega) b hb

/-- A text resolved within a limit needs only texts resolved within the limit below. -/
theorem needs_ok {f : Nat} {x y : N × Str} {out : Str} (hx : resolve g (f + 1) x.1 x.2 = .ok out)
    (hpath : ∀ n, g.pathOf n ≠ []) (h : Needs g x y) : ∃ r, resolve g f y.1 y.2 = .ok r := by
  rw [resolve_succ] at hx
  have tok : ∀ {c : Str}, HasToken g x.2 c → ∃ r, tokenRep g (resolve g f) x.1 (['$', '{'] ++ c ++ ['}']) = .ok r :=
    fun hT => applyTokens_ok hx _ (mem_standalone g hT)
  have bindOk : ∀ {a : Out Str} {k : Str → Out Str} {r : Str}, a.bind k = .ok r → ∃ s, a = .ok s ∧ k s = .ok r := by
    intro a k r h
    cases a with
    | deep => cases h
    | raised => cases h
    | ok s => exact ⟨s, rfl, h⟩
  cases h with
  | attrInner hT hc =>
    obtain ⟨r, hr⟩ := tok hT
    simp only [tokenRep, content_token, kind_attr hc hT.2, attrRef] at hr
    obtain ⟨s, hs, _⟩ := bindOk hr
    exact ⟨s, hs⟩
  | attrValue hT hc hM hN hl hv =>
    obtain ⟨r, hr⟩ := tok hT
    simp only [tokenRep, content_token, kind_attr hc hT.2] at hr
    have hr' := hr
    unfold attrRef at hr'
    obtain ⟨s, hs, _⟩ := bindOk hr'
    have := means_det g hM ⟨f, hs⟩
    subst this
    rw [attrRef_names g (hpath _) hs hN, hl, attrValue_of_text g hv] at hr
    exact ⟨r, hr⟩
  | pathInner hT =>
    obtain ⟨r, hr⟩ := tok hT
    simp only [tokenRep, content_token, kind_filepath hT.2, filePathToken, List.drop_left] at hr
    obtain ⟨s, hs, _⟩ := bindOk hr
    exact ⟨s, hs⟩
  | fileInner hT =>
    obtain ⟨r, hr⟩ := tok hT
    simp only [tokenRep, content_token, kind_file hT.2, fileToken, List.drop_left] at hr
    obtain ⟨s, hs, _⟩ := bindOk hr
    exact ⟨s, hs⟩
  | fileAgain hT hM =>
    obtain ⟨r, hr⟩ := tok hT
    simp only [tokenRep, content_token, kind_file hT.2, fileToken, List.drop_left] at hr
    obtain ⟨s, hs, hk⟩ := bindOk hr
    have := means_det g hM ⟨f, hs⟩
    subst this
    obtain ⟨_, hs2, _⟩ := bindOk hk
    unfold filePathToken at hs2
    obtain ⟨s3, hs3, _⟩ := bindOk hs2
    exact ⟨s3, hs3⟩
  | contentsInner hT =>
    obtain ⟨r, hr⟩ := tok hT
    simp only [tokenRep, content_token, kind_contents hT.2, contentsToken, List.drop_left] at hr
    obtain ⟨s, hs, _⟩ := bindOk hr
    exact ⟨s, hs⟩
  | contentsText hT hM hs =>
    obtain ⟨r, hr⟩ := tok hT
    simp only [tokenRep, content_token, kind_contents hT.2, contentsToken, List.drop_left] at hr
    obtain ⟨s, hs', hk⟩ := bindOk hr
    have := means_det g hM ⟨f, hs'⟩
    subst this
    rw [hs] at hk
    exact ⟨r, hk⟩

theorem token_not_raised (hg : Regular g) {rec : N → Str → Out Str} (hrec : ∀ n t, rec n t ≠ .raised) (n : N) (t : Str) :
    tokenRep g rec n t ≠ .raised := by
  have bindNR : ∀ {a : Out Str} {k : Str → Out Str}, a ≠ .raised → (∀ s, k s ≠ .raised) → a.bind k ≠ .raised := by
    intro a k ha hk h
    cases a with
    | deep => cases h
    | raised => exact ha rfl
    | ok s => exact hk s h
  have hpath : ∀ n, g.pathOf n ≠ [] := fun n h => by obtain ⟨s, hs⟩ := hg.1 n; rw [hs] at h; cases h
  have hav : ∀ (m : Option N) (a : Str), attrValue g rec m a ≠ .raised := by
    intro m a
    cases m with
    | none => exact fun h => nomatch h
    | some m =>
      unfold attrValue
      simp only
      split
      · exact fun h => nomatch h
      · exact fun h => nomatch h
      · split
        · exact fun h => nomatch h
        · exact hrec _ _
      · exact hrec _ _
      · rename_i s hs
        rw [hg.2 m a s hs]
        exact fun h => nomatch h
  unfold tokenRep
  simp only
  split
  · exact fun h => nomatch h
  · exact fun h => nomatch h
  · exact bindNR (hrec _ _) fun _ => bindNR (bindNR (hrec _ _) fun _ h => nomatch h) fun _ h => nomatch h
  · exact bindNR (hrec _ _) fun _ h => nomatch h
  · apply bindNR (hrec _ _)
    intro r
    split
    · exact fun h => nomatch h
    · exact hrec _ _
  · exact fun h => nomatch h
  · exact fun h => nomatch h
  · cases hr : rec n (getTokenContent t) with
    | deep => unfold attrRef; rw [hr]; exact fun h => nomatch h
    | raised => exact absurd hr (hrec _ _)
    | ok r =>
      obtain ⟨q, a, hN⟩ := names_exists g n (hpath n) r
      rw [attrRef_names g (hpath n) hr hN]
      exact hav _ _

theorem resolve_not_raised (hg : Regular g) (f : Nat) : ∀ n t, resolve g f n t ≠ .raised := by
  induction f with
  | zero => exact fun _ _ h => nomatch h
  | succ f ih =>
    intro n t
    rw [resolve_succ]
    exact applyTokens_not_raised (fun t _ => token_not_raised g hg ih n t) t

end Nxt.Resolve
