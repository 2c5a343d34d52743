import Verif.Lemmas.Subst
/-!
# Properties C06, C07, C66: resolving tokens (`Stage.resolve`)
-/
namespace Nxt.Props
open Py Spec Tokens Resolve

/-! ## A small graph for the concrete cases -/

/-- Attributes of the example graph: `false` is the node `/n`, `true` is the node `/n/x`. -/
def demoAttr : Bool → Str → Resolve.Attr
  | false, a =>
    if a = "a".toList then .str "A${b}".toList
    else if a = "b".toList then .str "B".toList
    else if a = "num".toList then .other true "7".toList
    else if a = "zero".toList then .other false "0".toList
    else if a = "who".toList then .str "x".toList
    else if a = "far".toList then .str "${/n/${who}.val}!".toList
    else if a = "self".toList then .str "-${self}".toList
    else if a = "p".toList then .str "${/n/x.q}".toList
    else if a = "open".toList then .str "${b} ${".toList
    else .missing
  | true, a =>
    if a = "val".toList then .str "V".toList
    else if a = "q".toList then .str "${...p}".toList
    else .missing

/-- Two nodes, a parent and its child. -/
def demo : Graph Bool where
  pathOf n := if n then "/n/x".toList else "/n".toList
  lookup p := if p = "/n".toList then some false else if p = "/n/x".toList then some true else none
  attr := demoAttr
  isProtected a := a = "_enabled".toList
  color _ := some "#fff".toList
  expandFile p := "/dir/".toList ++ p
  fileExists p := p = "/dir/B".toList
  contents p := if p = "f".toList then some "in ${b}".toList else none
  plugins := []

theorem demo_regular : Regular demo := by
  constructor
  · intro n
    cases n
    · exact ⟨"n".toList, rfl⟩
    · exact ⟨"n/x".toList, rfl⟩
  · intro n a s h
    show decide (a = "_enabled".toList) = false
    rw [decide_eq_false_iff_not]
    rintro rfl
    have hm : ∀ n, demo.attr n "_enabled".toList = .missing := by decide +kernel
    rw [hm] at h
    cases h

/-! ## C06 -/

/-- **C06** A text without opener resolves to itself, whatever the graph and the node. -/
theorem C06_plain {N : Type} (g : Graph N) (f : Nat) (n : N) {text : Str} (h : ∀ a b, text ≠ a ++ ['$', '{'] ++ b) :
    resolve g (f + 1) n text = .ok text := by
  have h0 : opens text = 0 := (opens_eq_zero_iff text).2 h
  rw [resolve_succ, C02_standalone_exact (.done h0)]
  rfl

example : resolve demo 1 false "{a} $b }".toList = .ok "{a} $b }".toList :=
  C06_plain demo 0 _ (by
    rw [← PREFIX, ← opens_eq_zero_iff]
    decide)

/-- **C06** A text with an opener that is never closed resolves to itself, even where it has other
tokens. -/
theorem C06_unclosed {N : Type} (g : Graph N) (f : Nat) (n : N) {text : Str} {ts : List Str}
    (h : Parse text ts false) : resolve g (f + 1) n text = .ok text := by
  rw [resolve_succ, C02_standalone_exact h]
  rfl

example : resolve demo 3 false "${b} ${".toList = .ok "${b} ${".toList := by decide +kernel

/-- **C06** An outcome does not depend on the recursion limit once the limit is large enough. -/
theorem C06_limit {N : Type} (g : Graph N) {f f' : Nat} (hle : f ≤ f') (n : N) (text : Str)
    (h : resolve g f n text ≠ .deep) : resolve g f' n text = resolve g f n text := by
  rcases resolve_le g hle n text with e | e
  · exact absurd e h
  · exact e.symm

example : resolve demo 900 false "${far}".toList = .ok "V!".toList := by
  rw [C06_limit demo (show 5 ≤ 900 by decide) _ _ (by decide +kernel)]
  decide +kernel

/-! ## C07 -/

/-- **C07** A text from which no chain of needs goes on for ever is resolved (or fails with an
exception of another kind) within some recursion limit. -/
theorem C07_terminates {N : Type} (g : Graph N) (n : N) (text : Str) (h : Grounded g (n, text)) :
    ∃ f, resolve g f n text ≠ .deep := by
  generalize hx : (n, text) = x at h
  induction h generalizing n text with
  | intro x _ ih =>
    subst hx
    obtain ⟨f, hf⟩ := exists_bound (P := fun t f => tokenRep g (resolve g f) n t ≠ .deep) (standaloneAll text)
      (fun t ht => token_not_deep g ht fun y hy => ih y hy y.1 y.2 rfl)
    refine ⟨f + 1, ?_⟩
    rw [resolve_succ]
    exact applyTokens_not_deep (hf f (Nat.le_refl f)) text

/-- **C07** A text that does resolve has no endless chain of needs. -/
theorem C07_finite {N : Type} (g : Graph N) (hpath : ∀ n, g.pathOf n ≠ []) {n : N} {text out : Str}
    (h : Means g n text out) : Grounded g (n, text) := by
  obtain ⟨f, h⟩ := h
  induction f generalizing n text out with
  | zero => cases h
  | succ f ih =>
    refine ⟨_, fun y hy => ?_⟩
    obtain ⟨r, hr⟩ := needs_ok g (x := (n, text)) h hpath hy
    exact ih hr

/-- **C07** In a regular graph a text resolves exactly when no chain of needs from it goes on for
ever; otherwise every recursion limit is exceeded. -/
theorem C07_iff {N : Type} (g : Graph N) (hg : Regular g) (n : N) (text : Str) :
    (Grounded g (n, text) ↔ ∃ out, Means g n text out) ∧
    (¬ Grounded g (n, text) ↔ ∀ f, resolve g f n text = .deep) := by
  have hpath : ∀ n, g.pathOf n ≠ [] := fun n h => by obtain ⟨s, hs⟩ := hg.1 n; rw [hs] at h; cases h
  have h1 : Grounded g (n, text) → ∃ out, Means g n text out := by
    intro h
    obtain ⟨f, hf⟩ := C07_terminates g n text h
    cases hr : resolve g f n text with
    | deep => exact absurd hr hf
    | raised => exact absurd hr (resolve_not_raised g hg f n text)
    | ok s => exact ⟨s, f, hr⟩
  refine ⟨⟨h1, fun ⟨out, h⟩ => C07_finite g hpath h⟩, ⟨fun h f => ?_, fun h hG => ?_⟩⟩
  · cases hr : resolve g f n text with
    | deep => rfl
    | raised => exact absurd hr (resolve_not_raised g hg f n text)
    | ok s => exact absurd (C07_finite g hpath ⟨f, hr⟩) h
  · obtain ⟨out, f, hf⟩ := h1 hG
    rw [h f] at hf
    cases hf

/-- C07: the value of `far` needs nested references and is resolved. -/
example : Means demo false "${far}".toList "V!".toList ∧ Grounded demo (false, "${far}".toList) := by
  have h : Means demo false "${far}".toList "V!".toList := ⟨5, by decide +kernel⟩
  exact ⟨h, ((C07_iff demo demo_regular _ _).1).2 ⟨_, h⟩⟩

theorem valueText_unique {N : Type} {g : Graph N} {n : N} {a v w : Str} (h : ValueText g n a v)
    (h' : ValueText g n a w) : v = w := by
  rcases h with ⟨h, _⟩ | h <;> rcases h' with ⟨h', _⟩ | h' <;> rw [h] at h' <;> cases h' <;> rfl

theorem means_plain {N : Type} (g : Graph N) (n : N) {c r : Str} (h0 : opens c = 0) : Means g n c r ↔ r = c := by
  have h : Means g n c c := ⟨1, C06_plain g 0 n ((opens_eq_zero_iff c).1 h0)⟩
  exact ⟨fun h' => means_det g h' h, fun e => e ▸ h⟩

/-- **C07** An attribute whose plain references lead back to it, directly or around a loop, never
resolves: every recursion limit is exceeded. -/
theorem C07_loop {N : Type} (g : Graph N) (hg : Regular g) {x : N × Str} {v : Str} (hv : ValueText g x.1 x.2 v)
    (h : Relation.TransGen (RefersTo g) x x) (f : Nat) : resolve g f x.1 v = .deep := by
  refine ((C07_iff g hg x.1 v).2).1 ?_ f
  intro hG
  generalize hz : (x.1, v) = z at hG
  induction hG generalizing x v with
  | intro z _ ih =>
    subst hz
    obtain ⟨y, hxy, hyy⟩ : ∃ y, RefersTo g x y ∧ Relation.TransGen (RefersTo g) y y := by
      have key : ∀ {a b}, Relation.TransGen (RefersTo g) a b → ∃ y, RefersTo g a y ∧ (y = b ∨ Relation.TransGen (RefersTo g) y b) := by
        intro a b hab
        induction hab with
        | single h => exact ⟨_, h, .inl rfl⟩
        | tail _ hbc ih =>
          obtain ⟨y, hy, hy'⟩ := ih
          rcases hy' with rfl | hy'
          · exact ⟨_, hy, .inr (.single hbc)⟩
          · exact ⟨_, hy, .inr (.tail hy' hbc)⟩
      obtain ⟨y, hy, hy'⟩ := key h
      rcases hy' with rfl | hy'
      · exact ⟨_, hy, h⟩
      · exact ⟨y, hy, hy'.tail hy⟩
    obtain ⟨w, hw⟩ : ∃ w, ValueText g y.1 y.2 w := by
      have key : ∀ {a b}, Relation.TransGen (RefersTo g) a b → ∃ w, ValueText g a.1 a.2 w := by
        intro a b hab
        induction hab with
        | single h => obtain ⟨w, _, _, hw, _⟩ := h; exact ⟨w, hw⟩
        | tail _ _ ih => exact ih
      exact key hyy
    obtain ⟨v', c, q, hv', hT, hc, h0, hN, hl⟩ := hxy
    have := valueText_unique hv hv'
    subst this
    exact ih (y.1, w) (.attrValue hT hc ((means_plain g _ h0).2 rfl) hN hl hw) hw hyy rfl

/-- C07: `self` refers to itself. -/
example (f : Nat) : resolve demo f false "-${self}".toList = .deep := by
  apply C07_loop demo demo_regular (x := (false, "self".toList)) (.inl ⟨by decide +kernel, by simp⟩)
  refine .single ⟨"-${self}".toList, "self".toList, "/n".toList, .inl ⟨by decide +kernel, by simp⟩, ?_, ?_, by decide, ?_, by decide +kernel⟩
  · refine ⟨⟨_, .tok (g := "-".toList) (t := "${self}".toList) (rest := []) (by decide) ?_ (.done (by decide)), List.mem_cons_self ..⟩, by simp [demo]⟩
    exact (C02_standalone_sound (raw := "${self}".toList) (by decide +kernel)).1
  · exact ⟨by decide, fun u h => by simp at h, fun u h => by simp at h, fun u h => by simp at h, by decide, by decide⟩
  · refine .own ?_ (by decide +kernel)
    rintro p a ⟨h, _⟩
    have : '.' ∈ "self".toList := by rw [h]; simp
    exact absurd this (by decide)

/-- **C07** In a regular graph with plain references only, an attribute whose references go down to
attributes without references is resolved. -/
theorem C07_plain {N : Type} (g : Graph N) (hg : Regular g) (hp : PlainGraph g) {x : N × Str} {v : Str}
    (hv : ValueText g x.1 x.2 v) (h : Acc (fun a b => RefersTo g b a) x) : ∃ out, Means g x.1 v out := by
  refine ((C07_iff g hg x.1 v).1).1 ?_
  induction h generalizing v with
  | intro x _ ih =>
    have plainTok : ∀ {c}, HasToken g v c → AttrContent c ∧ opens c = 0 := by
      rintro c ⟨⟨ts, hts, hm⟩, _⟩
      exact hp.2 x.1 x.2 v ts hv hts c hm
    refine ⟨_, fun y hy => ?_⟩
    cases hy with
    | @attrInner n text c hT hc =>
      have h0 := (plainTok hT).2
      refine ⟨_, fun z hz => ?_⟩
      exfalso
      have none : ∀ {d}, ¬ HasToken g c d := by
        intro d hd
        have := mem_standalone g hd
        rw [C02_standalone_exact (.done h0)] at this
        simp at this
      cases hz with
      | attrInner h => exact none h
      | attrValue h => exact none h
      | pathInner h => exact none h
      | fileInner h => exact none h
      | fileAgain h => exact none h
      | contentsInner h => exact none h
      | contentsText h => exact none h
    | @attrValue n m text c r q a w hT hc hM hN hl hw =>
      have h0 := (plainTok hT).2
      have := (means_plain g _ h0).1 hM
      subst this
      exact ih (m, a) ⟨v, r, q, hv, hT, hc, h0, hN, hl⟩ hw
    | pathInner hT => exact absurd rfl ((plainTok hT).1.2.2.1 _)
    | fileInner hT => exact absurd rfl ((plainTok hT).1.2.1 _)
    | fileAgain hT => exact absurd rfl ((plainTok hT).1.2.1 _)
    | contentsInner hT => exact absurd rfl ((plainTok hT).1.2.2.2.1 _)
    | contentsText hT => exact absurd rfl ((plainTok hT).1.2.2.2.1 _)

/-- C07: two attributes around a loop over two nodes exceed the default limit. -/
example : resolve demo 50 false "${p}".toList = .deep := by decide +kernel

/-! ## C66 -/

/-- The replacement found for a token is its specified meaning. -/
theorem tokenRep_means {N : Type} (g : Graph N) {n : N} (hn : g.pathOf n ≠ []) {c s : Str} (h : TokenMeans g n c s)
    (hp : ∀ p ∈ g.plugins, p.detect c = false) :
    ∃ f, ∀ f' ≥ f, tokenRep g (resolve g f') n (['$', '{'] ++ c ++ ['}']) = .ok s := by
  have up : ∀ {m : N} {t r : Str}, Means g m t r → ∃ f, ∀ f' ≥ f, resolve g f' m t = .ok r := by
    rintro m t r ⟨f, hf⟩
    exact ⟨f, fun f' hle => by rw [C06_limit g hle _ _ (by rw [hf]; exact fun h => nomatch h), hf]⟩
  simp only [tokenRep, content_token]
  cases h with
  | empty => exact ⟨0, fun _ _ => by simp [tokenKind]⟩
  | @attr c r s hc hM hR =>
    rw [kind_attr hc hp]
    obtain ⟨f1, h1⟩ := up hM
    cases hR with
    | value hN hl hv hM2 =>
      obtain ⟨f2, h2⟩ := up hM2
      refine ⟨max f1 f2, fun f' hf => ?_⟩
      rw [attrRef_names g hn (h1 f' (by omega)) hN, hl, attrValue_of_text g hv, h2 f' (by omega)]
    | noNode hN hl =>
      refine ⟨f1, fun f' hf => ?_⟩
      rw [attrRef_names g hn (h1 f' hf) hN, hl]
      rfl
    | noValue hN hl hv =>
      refine ⟨f1, fun f' hf => ?_⟩
      rw [attrRef_names g hn (h1 f' hf) hN, hl]
      unfold attrValue
      rcases hv with h | h | h <;> simp [h]
    | falseValue hN hl hv hpr =>
      refine ⟨f1, fun f' hf => ?_⟩
      rw [attrRef_names g hn (h1 f' hf) hN, hl]
      simp [attrValue, hv, hpr]
  | filepath hM =>
    rw [kind_filepath hp]
    obtain ⟨f1, h1⟩ := up hM
    refine ⟨f1, fun f' hf => ?_⟩
    simp only [List.drop_left, filePathToken, h1 f' hf, Out.bind]
  | file hM hM2 he =>
    rw [kind_file hp]
    obtain ⟨f1, h1⟩ := up hM
    obtain ⟨f2, h2⟩ := up hM2
    refine ⟨max f1 f2, fun f' hf => ?_⟩
    simp only [List.drop_left, fileToken, filePathToken, h1 f' (by omega), h2 f' (by omega), Out.bind, he, if_true]
  | noFile hM hM2 he =>
    rw [kind_file hp]
    obtain ⟨f1, h1⟩ := up hM
    obtain ⟨f2, h2⟩ := up hM2
    refine ⟨max f1 f2, fun f' hf => ?_⟩
    simp only [List.drop_left, fileToken, filePathToken, h1 f' (by omega), h2 f' (by omega), Out.bind, he]
    rfl
  | contents hM hs hM2 =>
    rw [kind_contents hp]
    obtain ⟨f1, h1⟩ := up hM
    obtain ⟨f2, h2⟩ := up hM2
    refine ⟨max f1 f2, fun f' hf => ?_⟩
    simp only [List.drop_left, contentsToken, h1 f' (by omega), Out.bind, hs, h2 f' (by omega)]
  | noContents hM hs =>
    rw [kind_contents hp]
    obtain ⟨f1, h1⟩ := up hM
    refine ⟨f1, fun f' hf => ?_⟩
    simp only [List.drop_left, contentsToken, h1 f' hf, Out.bind, hs]
  | path => rw [kind_path hp]; exact ⟨0, fun _ _ => rfl⟩
  | color hs => rw [kind_color hp]; exact ⟨0, fun _ _ => by simp [hs]⟩
  | noColor hs => rw [kind_color hp]; exact ⟨0, fun _ _ => by simp [hs]⟩

/-- **C66** (partial) A text resolves to itself with every standalone token replaced by what it
stands for, all other characters kept.  What is missing: it is assumed that no token of the text is
written inside another one, that no replacement contains or begins an opener, and that `$${` does
not occur; without these it is false, see the violations below. -/
theorem C66_substitution_partial {N : Type} (g : Graph N) {n : N} (hn : g.pathOf n ≠ []) {text : Str} {ts : List Str}
    (hparse : Parse text ts true) {m : Str → Str}
    (hm : ∀ c, ['$', '{'] ++ c ++ ['}'] ∈ ts → TokenMeans g n c (m (['$', '{'] ++ c ++ ['}'])))
    (hp : ∀ c, ['$', '{'] ++ c ++ ['}'] ∈ ts → ∀ p ∈ g.plugins, p.detect c = false)
    (hinert : ∀ t ∈ ts, Inert (m t)) (hnest : NotNested ts)
    (hdollar : ∀ a b, text ≠ a ++ ['$', '$', '{'] ++ b) :
    ∃ out, Renders m text out ∧ Means g n text out := by
  obtain ⟨segs, tail, htext, hts, htail, hsegs⟩ := parse_segs hparse rfl
  have htok : ∀ p ∈ segs, IsToken p.2 := fun p hp => (hsegs p hp).2
  have hmem : ∀ p ∈ segs, p.2 ∈ ts := fun p hp => by rw [hts]; exact List.mem_map_of_mem hp
  have hgaps := gaps_ok htok (htext ▸ hdollar)
  refine ⟨mixTok m segs tail, htext ▸ renders_segs segs htail hsegs, ?_⟩
  have hst : standaloneAll text = ts := by rw [C02_standalone_exact hparse]; rfl
  obtain ⟨f, hf⟩ := exists_bound (P := fun t f => tokenRep g (resolve g f) n t = .ok (m t)) ts (by
    intro t ht
    rw [← hst] at ht
    obtain ⟨c, ts', rfl, hp', hm'⟩ := hasToken_of_mem ht
    rw [hst] at ht
    exact tokenRep_means g hn (hm c ht) (hp c ht))
  refine ⟨f + 1, ?_⟩
  rw [resolve_succ, hst, applyTokens_eq (hf f (Nat.le_refl f))]
  have key := foldl_mixTok (m := m) segs tail (fun p hp => ⟨(hsegs p hp).1, hgaps p hp⟩) htail htok
    (fun p hp => hinert _ (hmem p hp)) ts (fun t ht => by
      rw [hts] at ht
      obtain ⟨p, hp, rfl⟩ := List.mem_map.1 ht
      exact ⟨p, hp, rfl⟩)
    (fun t ht p hp a b e => hnest t ht p.2 (hmem p hp) a b e) []
  have e1 : mixTok (fun x => if x ∈ ([] : List Str) then m x else x) segs tail = text := by
    rw [htext]
    exact mixTok_congr segs tail fun p _ => by simp
  have e2 : mixTok (fun x => if x ∈ [] ++ ts then m x else x) segs tail = mixTok m segs tail :=
    mixTok_congr segs tail fun p hp => by simp [hmem p hp]
  rw [e1, e2] at key
  rw [key]

/-- C66: a text with a reference, a number, a missing attribute, a path, a file and a file's contents. -/
example : resolve demo 6 false "<${a}|${num}|${zero}|${no}|${_nxtpath}|${file::${b}}|${contents::f}|${a}>".toList =
    .ok "<AB|7|0||/n|/dir/B|in B|AB>".toList := by decide +kernel

/-- C66: the hypotheses are met by `${a}-${b}${a}`. -/
example : ∃ out, Renders (fun t => if t = "${a}".toList then "AB".toList else "B".toList) "${a}-${b}${a}".toList out ∧
    Means demo false "${a}-${b}${a}".toList out := by
  have isTok : ∀ t, standaloneAll t = [t] → IsToken t := fun t h => (C02_standalone_sound (raw := t) (by rw [h]; exact List.mem_cons_self ..)).1
  have hparse : Parse "${a}-${b}${a}".toList ["${a}".toList, "${b}".toList, "${a}".toList] true :=
    .tok (g := []) (t := "${a}".toList) (by decide) (isTok _ (by decide +kernel))
      (.tok (g := "-".toList) (t := "${b}".toList) (by decide) (isTok _ (by decide +kernel))
        (.tok (g := []) (t := "${a}".toList) (rest := []) (by decide) (isTok _ (by decide +kernel)) (.done (by decide))))
  have attrC : ∀ x : Char, x ≠ 'f' → x ≠ 'p' → x ≠ 'c' → x ≠ '_' → AttrContent [x] := by
    intro x _ _ _ _
    exact ⟨by simp, fun u h => by simp at h, fun u h => by simp at h, fun u h => by simp at h, by simp, by simp⟩
  have own : ∀ x : Char, x ≠ '.' → RefNames demo false [x] "/n".toList [x] := by
    intro x hx
    refine .own ?_ (by decide +kernel)
    rintro p a ⟨h, _⟩
    have : '.' ∈ [x] := by rw [h]; simp
    simp only [List.mem_singleton] at this
    exact hx this.symm
  refine C66_substitution_partial demo (by decide) hparse ?_ (fun _ _ => by simp [demo]) ?_ ?_ ?_
  · intro c hc
    have hc' : c = ['a'] ∨ c = ['b'] := by
      simp at hc
      rcases hc with h | h | h
      · left; exact List.append_cancel_right (bs := ['}']) h
      · right; exact List.append_cancel_right (bs := ['}']) h
      · left; exact List.append_cancel_right (bs := ['}']) h
    rcases hc' with rfl | rfl
    · exact .attr (attrC 'a' (by decide) (by decide) (by decide) (by decide)) (r := ['a']) ⟨1, by decide +kernel⟩
        (.value (own 'a' (by decide)) (m := false) (v := "A${b}".toList) (by decide +kernel) (.inl ⟨by decide +kernel, by simp⟩)
          ⟨3, by decide +kernel⟩)
    · exact .attr (attrC 'b' (by decide) (by decide) (by decide) (by decide)) (r := ['b']) ⟨1, by decide +kernel⟩
        (.value (own 'b' (by decide)) (m := false) (v := "B".toList) (by decide +kernel) (.inl ⟨by decide +kernel, by simp⟩)
          ⟨3, by decide +kernel⟩)
  · intro t ht
    simp only [List.mem_cons, List.not_mem_nil, or_false] at ht
    rcases ht with rfl | rfl | rfl <;> exact ⟨by decide +kernel, by decide +kernel⟩
  · intro t ht t' ht' a b e
    have hl : ∀ x ∈ ["${a}".toList, "${b}".toList, "${a}".toList], x.length = 4 := by decide
    have := congrArg List.length e
    simp only [List.length_append, hl t ht, hl t' ht'] at this
    exact List.eq_nil_of_length_eq_zero (by omega)
  · intro a b e
    have h : contains "${a}-${b}${a}".toList ['$', '$', '{'] = true := contains_iff.2 ⟨a, b, e⟩
    exact absurd h (by decide +kernel)

theorem atomic_isToken {t : Str} (h : IsAtomic t) : IsToken t := by
  obtain ⟨c, rfl, h0, hc⟩ := h
  have hcl : closes c = 0 := by simp only [closes, List.count_eq_zero]; exact hc
  have h1 : opens (['$', '{'] ++ c ++ ['}']) = 1 := by
    rw [opens_append (by rintro ⟨_, h⟩; simp at h), show (['$', '{'] ++ c : Str) = '$' :: '{' :: c from rfl, opens_cons,
      opens_cons, opener_zero (c := '{') (by simp), h0]
    rfl
  refine ⟨⟨c ++ ['}'], rfl⟩, ?_, ?_⟩
  · rw [h1, closes_append, closes_append, hcl]
    decide
  · intro p r e hr hp
    obtain ⟨p', rfl⟩ : ∃ p', p = '$' :: '{' :: p' := by
      match p, hp with
      | a :: b :: p', _ =>
        simp only [List.cons_append, List.nil_append, List.cons.injEq] at e
        exact ⟨p', by rw [← e.1, ← e.2.1]⟩
    have e' : c ++ ['}'] = p' ++ r := by simpa using e
    have hp' : closes p' = 0 := by
      rcases List.append_eq_append_iff.1 e' with ⟨d, rfl, hd⟩ | ⟨d, rfl, hd⟩
      · have : d = [] ∨ r = [] := by
          have := congrArg List.length hd
          simp only [List.length_singleton, List.length_append] at this
          cases d with
          | nil => exact .inl rfl
          | cons => right; exact List.eq_nil_of_length_eq_zero (by simp at this; omega)
        rcases this with rfl | rfl
        · simpa using hcl
        · exact absurd rfl hr
      · simp only [closes, List.count_eq_zero] at hcl ⊢
        exact fun h => hcl (List.mem_append_left _ h)
    have : closes ('$' :: '{' :: p') = closes p' := by simp [closes]
    rw [this, hp', opens_cons]
    simp [opener]
    omega

/-- **C66** A node without a path in the layer gets its own value of a reference without node path:
not resolved again, an exception when it is not a text, and the quoted token when it is false or
missing. -/
theorem C66_pathless {N : Type} (g : Graph N) {n : N} (hn : g.pathOf n = []) {c : Str} (h0 : opens c = 0)
    (hb : '}' ∉ c) (hc : AttrContent c) (hp : ∀ p ∈ g.plugins, p.detect c = false) (hs : ∀ p a, ¬ SplitRef c p a)
    (f : Nat) : resolve g (f + 2) n (['$', '{'] ++ c ++ ['}']) = match g.attr n c with
      | .str s => .ok (if s = [] then ['"'] ++ (['$', '{'] ++ c ++ ['}']) ++ ['"'] else s)
      | .other true _ => .raised
      | _ => .ok (['"'] ++ (['$', '{'] ++ c ++ ['}']) ++ ['"']) := by
  have ht : IsToken (['$', '{'] ++ c ++ ['}']) := atomic_isToken ⟨c, rfl, h0, hb⟩
  have hst : standaloneAll (['$', '{'] ++ c ++ ['}']) = [['$', '{'] ++ c ++ ['}']] := by
    have := C02_standalone_exact (.tok (g := []) (rest := []) (by decide) ht (.done (by decide)))
    simpa using this
  have hrep : tokenRep g (resolve g (f + 1)) n (['$', '{'] ++ c ++ ['}']) = localValue g n c := by
    simp only [tokenRep, content_token, kind_attr hc hp, attrRef,
      C06_plain g f n ((opens_eq_zero_iff c).1 h0), Out.bind]
    rcases partition_ref c with ⟨p, a, h, _⟩ | ⟨_, h⟩
    · exact absurd h (hs p a)
    · split
      · rename_i p a heq
        have := h p a heq
        rw [if_neg (fun h => by rcases this with h' | h'; exact h.1 h'; exact h.2 h'), if_neg (fun h => h hn)]
      · rw [if_neg (fun h => h hn)]
  have hself : ∀ s : Str, replace (['$', '{'] ++ c ++ ['}']) (['$', '{'] ++ c ++ ['}']) s = s := by
    intro s
    have := FilePaths.replaceGo_match '$' ('{' :: (c ++ ['}'])) s []
    rw [List.append_nil] at this
    exact this.trans (by simp [replaceGo])
  rw [resolve_succ, hst, applyTokens_cons, hrep]
  unfold localValue
  cases g.attr n c with
  | missing => simp only [Out.bind, hself]; simp [applyTokens]
  | none => simp only [Out.bind, hself]; simp [applyTokens]
  | str s =>
    by_cases h : s = []
    · simp only [Out.bind, if_pos h, hself]; simp [applyTokens]
    · simp only [Out.bind, if_neg h, hself]; rfl
  | other b s =>
    cases b with
    | true => rfl
    | false => simp only [Out.bind, hself]; simp [applyTokens]

/-- C66: on a node that is not in the layer, `${open}` gives the raw value. -/
example : resolve { demo with pathOf := fun _ => [] } 2 false "${a}".toList = .ok "A${b}".toList := by
  have := C66_pathless { demo with pathOf := fun _ => [] } (n := false) rfl (c := ['a']) (by decide) (by decide)
    ⟨by simp, fun u h => by simp at h, fun u h => by simp at h, fun u h => by simp at h, by simp, by simp⟩
    (by simp [demo]) (by rintro p a ⟨h, _⟩; have : '.' ∈ ['a'] := by rw [h]; simp
                         simp at this) 0
  exact this.trans (by decide +kernel)

/-- **C66** (violation) A token that also occurs inside another token of the same text is replaced
there too, and the outer token is then not found any more: `${who} ${/n/${who}.val}` at `/n` gives
`x ${/n/x.val}` although the second token alone gives `V`. -/
theorem C66_nested_violation : ∃ (text out : Str), Means demo false text out ∧
    Means demo false "${/n/${who}.val}".toList "V".toList ∧ text = "${who} ${/n/${who}.val}".toList ∧
    out = "x ${/n/x.val}".toList :=
  ⟨_, _, ⟨4, by decide +kernel⟩, ⟨4, by decide +kernel⟩, rfl, rfl⟩

/-- **C66** (violation) A replacement that contains the text of a later token is replaced in turn:
`${open}` alone gives the text `${b} ${`, followed by `${b}` it is changed. -/
theorem C66_sequential_violation : Means demo false "${open}".toList "${b} ${".toList ∧
    Means demo false "${open}|${b}".toList "B ${|B".toList :=
  ⟨⟨3, by decide +kernel⟩, ⟨3, by decide +kernel⟩⟩

/-- **C66** (violation) A token naming a protected attribute with a false value that is not a text
(such as `_enabled` of a disabled node) has no replacement, resolving raises at every limit. -/
theorem C66_protected_violation (f : Nat) :
    resolve { demo with attr := fun _ a => if a = "_enabled".toList then .other false "False".toList else .missing }
      (f + 2) false "${_enabled}".toList = .raised := by
  rw [C06_limit _ (show 2 ≤ f + 2 by omega) _ _ (by decide +kernel)]
  decide +kernel

end Nxt.Props
