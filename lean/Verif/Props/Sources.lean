import Verif.Model.Sources
import Verif.Spec.Sources
import Verif.Props.Resolve
import Verif.Props.Path
/-!
# Property C109: the references in a value
-/
namespace Nxt.Props
open Py Spec Tokens Resolve Sources

/-! ## C109 -/

/-- Every opener of a text with flat tokens begins one of them. -/
theorem flat_opener {text : Str} {ts : List Str} {ok : Bool} (h : Parse text ts ok) (hok : ok = true)
    (hat : ∀ t ∈ ts, IsAtomic t) :
    ∀ a b, text = a ++ PREFIX ++ b → ∃ c r, b = c ++ '}' :: r ∧ makeTokenStr c ∈ ts ∧ '}' ∉ c ∧ opens c = 0 := by
  induction h with
  | done h0 => intro a b e; exact absurd e ((opens_eq_zero_iff _).1 h0 a b)
  | unclosed => cases hok
  | @tok gap t rest ts ok h0 ht _ ih =>
    intro a b e
    obtain ⟨c, hc, ho, hb⟩ := hat t (List.mem_cons_self ..)
    have e' : gap ++ PREFIX ++ (c ++ '}' :: rest) = a ++ PREFIX ++ b := by
      rw [← e, hc]; simp [PREFIX]
    rcases opener_cases e' with ⟨m, h1, -⟩ | ⟨-, h2⟩ | ⟨m, h1, -⟩
    · exact absurd h1 ((opens_eq_zero_iff _).1 h0 a m)
    · exact ⟨c, rest, h2, by rw [makeTokenStr, SUFFIX, PREFIX, ← hc]; exact List.mem_cons_self .., hb, ho⟩
    · have e2 : (c ++ ['}']) ++ rest = m ++ (PREFIX ++ b) := by simpa using h1
      have hcl : opens (c ++ ['}']) = 0 := by
        rw [opens_append (by rintro ⟨_, h⟩; simp at h), ho]; rfl
      rcases List.append_eq_append_iff.1 e2 with ⟨m', -, h4⟩ | ⟨m', h3, h4⟩
      · obtain ⟨c', r, k1, k2, k3⟩ := ih hok (fun t ht => hat t (List.mem_cons_of_mem _ ht)) m' b (by rw [h4]; simp)
        exact ⟨c', r, k1, List.mem_cons_of_mem _ k2, k3⟩
      · match m', h3, h4 with
        | [], h3, h4 =>
          obtain ⟨c', r, k1, k2, k3⟩ := ih hok (fun t ht => hat t (List.mem_cons_of_mem _ ht)) [] b (by
            rw [List.nil_append] at h4 ⊢; exact h4.symm)
          exact ⟨c', r, k1, List.mem_cons_of_mem _ k2, k3⟩
        | [x], h3, h4 =>
          simp [PREFIX] at h4
          have := congrArg List.getLast? h3
          simp at this
          rw [← this] at h4
          exact absurd h4.1 (by decide)
        | x :: y :: r, h3, h4 =>
          simp [PREFIX] at h4
          refine absurd ?_ ((opens_eq_zero_iff _).1 hcl m r)
          rw [h3, ← h4.1, ← h4.2.1]
          simp [PREFIX]

/-- A token of a text stands in it. -/
theorem parse_occurs {text : Str} {ts : List Str} {ok : Bool} (h : Parse text ts ok) :
    ∀ t ∈ ts, ∃ a b, text = a ++ t ++ b := by
  induction h with
  | done => intro t h; cases h
  | unclosed => intro t h; cases h
  | @tok gap t0 rest ts ok _ _ _ ih =>
    intro t h
    rcases List.mem_cons.1 h with rfl | h
    · exact ⟨gap, rest, rfl⟩
    · obtain ⟨a, b, e⟩ := ih t h
      exact ⟨gap ++ t0 ++ a, b, by rw [e]; simp⟩

/-- C109: of a text without nested tokens all tokens are found, whatever their kind. -/
theorem C109_flat_tokens {text : Str} {ts : List Str} (h : FlatTokens text ts) (t : Str) :
    t ∈ getAtomicTokens text ↔ t ∈ ts := by
  have key := flat_opener h.1 rfl h.2
  rw [C05_atomic_exact]
  constructor
  · rintro ⟨a, c, r, hv, hc, ho, rfl, -⟩
    obtain ⟨c', r', k1, k2, k3, -⟩ := key a _ hv
    have : c = c' := by
      rcases List.append_eq_append_iff.1 k1 with ⟨m, h1, h2⟩ | ⟨m, h1, h2⟩
      · cases m with
        | nil => simpa using h1.symm
        | cons x m =>
          simp at h2
          rw [h1, ← h2.1] at k3
          exact absurd (by simp) k3
      · cases m with
        | nil => simpa using h1
        | cons x m =>
          simp at h2
          rw [h1, ← h2.1] at hc
          exact absurd (by simp) hc
    rw [this]; exact k2
  · intro ht
    obtain ⟨c, rfl, ho, hc⟩ := h.2 t ht
    obtain ⟨a, b, e⟩ := parse_occurs h.1 _ ht
    refine ⟨a, c, b, by rw [e]; simp [PREFIX], hc, ho, rfl, ?_⟩
    intro a' b' e' _
    obtain ⟨c', r', k1, -, -, k4⟩ := key a' b' e'
    exact ⟨c', r', k1, k4⟩

example : FlatTokens "a ${/n.b} ${c}".toList ["${/n.b}".toList, "${c}".toList] ∧
    getAtomicTokens "a ${/n.b} ${c}".toList = ["${c}".toList, "${/n.b}".toList] := by
  have hb : IsAtomic "${/n.b}".toList := ⟨"/n.b".toList, by decide +kernel, by decide +kernel, by decide +kernel⟩
  have hc : IsAtomic "${c}".toList := ⟨"c".toList, by decide +kernel, by decide +kernel, by decide +kernel⟩
  refine ⟨⟨?_, ?_⟩, by decide +kernel⟩
  · exact .tok (g := "a ".toList) (t := "${/n.b}".toList) (by decide +kernel) (atomic_isToken hb)
      (.tok (g := " ".toList) (t := "${c}".toList) (rest := []) (by decide +kernel) (atomic_isToken hc)
        (.done (by decide +kernel)))
  · intro t ht
    simp at ht
    rcases ht with rfl | rfl
    · exact hb
    · exact hc

/-- The whole token is taken for an attribute reference, whatever is in it. -/
theorem kind_whole {N : Type} {plugins : List (Plugin N)} {c : Str}
    (hp : ∀ p ∈ plugins, p.detect (makeTokenStr c) = false) :
    ∃ k : Kind N, tokenKind plugins (makeTokenStr c) = k ∧ typOf k = some .attr := by
  refine ⟨.attr, ?_, rfl⟩
  have hne : ∀ (s : Str) (x : Char) (r : Str), x ≠ '$' → startsWith (makeTokenStr c) (x :: r) = false := by
    intro _ x r hx
    cases h : startsWith (makeTokenStr c) (x :: r) with
    | false => rfl
    | true =>
      obtain ⟨u, hu⟩ := startsWith_iff.1 h
      simp [makeTokenStr, PREFIX] at hu
      exact absurd hu.1.symm hx
  have hne' : ∀ (x : Char) (r : Str), x ≠ '$' → makeTokenStr c ≠ x :: r := by
    intro x r hx h
    simp [makeTokenStr, PREFIX] at h
    exact hx h.1.symm
  unfold tokenKind
  rw [if_neg (by simp [makeTokenStr, PREFIX]), find_plugin_none hp]
  simp only
  have e1 : "file::".toList = 'f' :: "ile::".toList := by decide
  have e2 : "path::".toList = 'p' :: "ath::".toList := by decide
  have e3 : "contents::".toList = 'c' :: "ontents::".toList := by decide
  have e4 : "_nxtpath".toList = '_' :: "nxtpath".toList := by decide
  have e5 : "_nxtcolor".toList = '_' :: "nxtcolor".toList := by decide
  rw [e1, e2, e3, e4, e5]
  rw [if_neg (by rw [hne [] 'f' _ (by decide)]; decide), if_neg (by rw [hne [] 'p' _ (by decide)]; decide),
    if_neg (by rw [hne [] 'c' _ (by decide)]; decide), if_neg (hne' '_' _ (by decide)), if_neg (hne' '_' _ (by decide))]

/-- C109 violated: asking for one kind of tokens.  Whatever the tokens are, each counts as an attribute
reference (as long as no plugin claims the token with its brackets): asking for attribute references gives
every token, asking for any other kind gives none. -/
theorem C109_kind_violation {N : Type} (plugins : List (Plugin N)) (text : Str)
    (hp : ∀ c, ∀ p ∈ plugins, p.detect (['$', '{'] ++ c ++ ['}']) = false) (k : Typ) :
    tokensFrom plugins text (some k) = if k = .attr then tokensFrom plugins text none else [] := by
  have key : ∀ t ∈ getAtomicTokens text, typOf (tokenKind plugins t) = some .attr := by
    intro t ht
    obtain ⟨⟨c, rfl, -, -⟩, -⟩ := C05_atomic_sound ht
    obtain ⟨k, h1, h2⟩ := kind_whole (hp c)
    rw [show ['$', '{'] ++ c ++ ['}'] = makeTokenStr c from rfl, h1, h2]
  unfold tokensFrom
  by_cases hk : k = .attr
  · rw [if_pos hk, hk]
    exact List.filter_eq_self.2 (fun t ht => by rw [key t ht]; decide)
  · rw [if_neg hk]
    refine List.filter_eq_nil_iff.2 (fun t ht => ?_)
    rw [key t ht]
    intro h
    exact hk (Option.some.inj (of_decide_eq_true h)).symm

example : tokensFrom demo.plugins "${file::a.txt} ${x}".toList (some .file) = [] ∧
    tokensFrom demo.plugins "${file::a.txt} ${x}".toList (some .attr) = ["${x}".toList, "${file::a.txt}".toList] := by
  decide +kernel

/-- C109 (see C04): the next partition finds the last innermost token and loses no text; it finds none when
there is no opener or the last one is not closed. -/
theorem C109_partition (text : Str) :
    (∀ b c a, nextTokenPartition text = some (b, c, a) →
      text = b ++ ['$', '{'] ++ c ++ ['}'] ++ a ∧ '}' ∉ c ∧ opens (c ++ ['}'] ++ a) = 0) ∧
    (nextTokenPartition text = none ↔
      opens text = 0 ∨ ∃ b c, text = b ++ ['$', '{'] ++ c ∧ opens c = 0 ∧ '}' ∉ c) := by
  have key : atomicTokenPartition text = (nextTokenPartition text).map (fun r => (r.1, makeTokenStr r.2.1, r.2.2)) := by
    unfold nextTokenPartition atomicTokenPartition
    cases rpartition? PREFIX text with
    | none => rfl
    | some r =>
      obtain ⟨b, rest⟩ := r
      simp only
      cases partition? SUFFIX rest with
      | none => rfl
      | some r => rfl
  constructor
  · intro b c a h
    rw [h] at key
    obtain ⟨h1, c', e, hc, ho⟩ := C04_partition_some key
    have : c = c' := by
      have h2 := C01_token_roundtrip c
      rw [e, show PREFIX ++ c' ++ SUFFIX = makeTokenStr c' from rfl, C01_token_roundtrip] at h2
      exact h2.symm
    subst this
    exact ⟨by rw [h1]; simp [makeTokenStr, PREFIX, SUFFIX], hc, ho⟩
  · rw [← show PREFIX = ['$', '{'] from rfl]
    rw [← C04_partition_none, key, Option.map_eq_none_iff]

example : nextTokenPartition "a ${b${c}} d".toList = some ("a ${b".toList, "c".toList, "} d".toList) := by
  decide +kernel

/-! ### The references -/

/-- Expanding a reference and expanding its node path come to the same. -/
theorem expand_ref {r p a s q : Str} (h : SplitRef r p a) (ha : '/' ∉ a) (hp : (∃ s, p = '/' :: s) ∨ EndsNamed p)
    (hq : Path.expandRelative (some p) s = some q) :
    Path.expandRelative (some r) s = some (q ++ ['.'] ++ a) := by
  obtain ⟨rfl, had, hp0, ha0⟩ := h
  by_cases habs : ∃ s, p = '/' :: s
  · obtain ⟨p, rfl⟩ := habs
    rw [C13_absolute_unchanged _ _ rfl] at hq
    rw [C13_absolute_unchanged _ _ rfl]
    cases hq; rfl
  · obtain ⟨u, x, hx, h1, h2, h3, h4⟩ := hp.resolve_left habs
    have hrel : ∀ c cs, p = c :: cs → c ≠ '/' := fun c cs e he => habs ⟨cs, by rw [e, he]⟩
    have hxs : ∀ (x : Str), '/' ∉ x → x ≠ [] → x ≠ ['.'] → x ≠ ['.', '.'] → ∀ cur,
        Path.expandStep cur x = cur ++ [Path.SEP] ++ x := by
      intro x _ h2 h3 h4 cur
      unfold Path.expandStep
      rw [if_neg h4, if_neg h3, if_neg h2]
    have hxa : ∀ cur, Path.expandStep cur (x ++ ['.'] ++ a) = cur ++ [Path.SEP] ++ (x ++ ['.'] ++ a) := by
      refine hxs _ ?_ ?_ ?_ ?_
      · simp only [List.mem_append, List.mem_singleton, not_or]
        exact ⟨⟨h1, by decide⟩, ha⟩
      · simp
      · intro h
        have := congrArg List.length h
        simp at this
        exact h2 (List.length_eq_zero_iff.1 (by omega))
      · intro h
        have h5 := congrArg List.length h
        simp at h5
        have h6 : x.length ≠ 0 := fun h => h2 (List.length_eq_zero_iff.1 h)
        have h7 : a.length ≠ 0 := fun h => ha0 (List.length_eq_zero_iff.1 h)
        omega
    have ex : ∀ (p : Str), p ≠ [] → (∀ c cs, p = c :: cs → c ≠ '/') →
        Path.expandRelative (some p) s = some ((split Path.SEP p).foldl Path.expandStep s) := by
      intro p hp hrel
      cases p with
      | nil => exact absurd rfl hp
      | cons c cs =>
        have hc := hrel c cs rfl
        unfold Path.expandRelative
        simp only
        rw [if_neg (by intro h; simp [Path.WORLD] at h; exact hc h.1), if_neg]
        intro h
        obtain ⟨t, ht⟩ := startsWith_iff.1 h
        simp [Path.SEP] at ht
        exact hc ht.1
    have hS : Path.SEP = '/' := rfl
    rw [hS] at hxs hxa ex
    have hsp : ∀ y : Str, '/' ∉ y → ∃ l, split '/' (if p = x then y else u ++ ['/'] ++ y) = l ++ [y] ∧
        l = (split '/' p).dropLast := by
      intro y hy
      by_cases hpx : p = x
      · rw [if_pos hpx, hpx, split_of_not_mem hy, split_of_not_mem h1]
        exact ⟨[], rfl, rfl⟩
      · rw [if_neg hpx]
        have hpu := hx.resolve_left hpx
        refine ⟨split '/' u, ?_, ?_⟩
        · rw [show u ++ ['/'] ++ y = u ++ '/' :: y by simp, split_append_last hy]
        · rw [hpu, show u ++ ['/'] ++ x = u ++ '/' :: x by simp, split_append_last h1,
            List.dropLast_concat]
    have e1 : p = if p = x then x else u ++ ['/'] ++ x := by
      by_cases hpx : p = x
      · rw [if_pos hpx]; exact hpx
      · rw [if_neg hpx]; exact hx.resolve_left hpx
    have e2 : p ++ ['.'] ++ a = if p = x then x ++ ['.'] ++ a else u ++ ['/'] ++ (x ++ ['.'] ++ a) := by
      by_cases hpx : p = x
      · rw [if_pos hpx, hpx]
      · rw [if_neg hpx, hx.resolve_left hpx]; simp
    have hya : '/' ∉ x ++ ['.'] ++ a := by
      simp only [List.mem_append, List.mem_singleton, not_or]
      exact ⟨⟨h1, by decide⟩, ha⟩
    obtain ⟨l, k1, k2⟩ := hsp x h1
    obtain ⟨l', k3, k4⟩ := hsp (x ++ ['.'] ++ a) hya
    rw [← e1] at k1
    rw [← e2] at k3
    rw [ex p hp0 hrel, k1, List.foldl_append, List.foldl_cons, List.foldl_nil, hxs x h1 h2 h3 h4] at hq
    rw [ex (p ++ ['.'] ++ a) (by simp) (by
      intro c cs e
      cases p with
      | nil => exact absurd rfl hp0
      | cons d ds => simp at e; rw [← e.1]; exact hrel d ds rfl), k3, List.foldl_append, List.foldl_cons, List.foldl_nil,
      hxa, k4, ← k2]
    cases hq
    simp

/-- What the loop over tokens gathers. -/
theorem sources_fold {N : Type} (g : Graph N) (n : N) (hn : g.pathOf n ≠ []) (ts : List Str) :
    ∀ refs, ∃ more, ts.foldl (sourceStep g n) (.ok refs) = .ok (refs ++ more) ∧
      ∀ x, x ∈ more ↔ ∃ t ∈ ts, '.' ∈ getTokenContent t ∧
        Path.expandRelative (some (getTokenContent t)) (g.pathOf n) = some x := by
  induction ts with
  | nil => intro refs; exact ⟨[], by simp, by simp⟩
  | cons t ts ih =>
    intro refs
    rw [List.foldl_cons]
    by_cases hd : '.' ∈ getTokenContent t
    · obtain ⟨q, hq⟩ := expandRelative_some (getTokenContent t) (g.pathOf n) (fun h => by rw [h] at hd; cases hd)
      have : sourceStep g n (.ok refs) t = .ok (refs ++ [q]) := by
        unfold sourceStep
        simp only [Out.bind]
        rw [if_neg (by simp [Path.isAttrPath, Path.ATTR_SEP, hd]), if_neg (fun h => hn h.1), hq]
      obtain ⟨more, h1, h2⟩ := ih (refs ++ [q])
      refine ⟨q :: more, by rw [this, h1]; simp, fun x => ?_⟩
      rw [List.mem_cons, h2]
      constructor
      · rintro (rfl | ⟨t', k1, k2⟩)
        · exact ⟨t, List.mem_cons_self .., hd, hq⟩
        · exact ⟨t', List.mem_cons_of_mem _ k1, k2⟩
      · rintro ⟨t', k1, k2, k3⟩
        rcases List.mem_cons.1 k1 with rfl | k1
        · rw [hq] at k3; cases k3; exact .inl rfl
        · exact .inr ⟨t', k1, k2, k3⟩
    · have : sourceStep g n (.ok refs) t = .ok refs := by
        unfold sourceStep
        simp only [Out.bind]
        rw [if_pos (by simp [Path.isAttrPath, Path.ATTR_SEP, hd])]
      obtain ⟨more, h1, h2⟩ := ih refs
      refine ⟨more, by rw [this, h1], fun x => ?_⟩
      rw [h2]
      constructor
      · rintro ⟨t', k1, k2⟩; exact ⟨t', List.mem_cons_of_mem _ k1, k2⟩
      · rintro ⟨t', k1, k2, k3⟩
        rcases List.mem_cons.1 k1 with rfl | k1
        · exact absurd k2 hd
        · exact ⟨t', k1, k2, k3⟩

/-- **C109** (for texts without nested tokens whose references with a dot name their nodes): the sources of a
text are exactly the node and attribute of each reference to a node.
Missing: nested tokens, references to a node by dots only, and tokens of other kinds, see the violations. -/
theorem C109_sources_partial {N : Type} (g : Graph N) (n : N) (hn : g.pathOf n ≠ [])
    (hp : ∀ c, ∀ p ∈ g.plugins, p.detect (['$', '{'] ++ c ++ ['}']) = false) {text : Str} {ts : List Str}
    (h : FlatTokens text ts) (hs : ∀ c, ['$', '{'] ++ c ++ ['}'] ∈ ts → '.' ∈ c → Spelled c) :
    ∃ refs, textSources g n text = .ok refs ∧
      ∀ x, x ∈ refs ↔ ∃ c p a q, ['$', '{'] ++ c ++ ['}'] ∈ ts ∧ SplitRef c p a ∧
        Path.expandRelative (some p) (g.pathOf n) = some q ∧ x = q ++ ['.'] ++ a := by
  obtain ⟨more, h1, h2⟩ := sources_fold g n hn (tokensFrom g.plugins text (some .attr)) []
  refine ⟨more, by unfold textSources; rw [h1]; simp, fun x => ?_⟩
  have hm : ∀ t, t ∈ tokensFrom g.plugins text (some .attr) ↔ t ∈ ts := by
    intro t
    rw [C109_kind_violation g.plugins text hp .attr, if_pos rfl]
    exact C109_flat_tokens h t
  rw [h2]
  constructor
  · rintro ⟨t, k1, k2, k3⟩
    rw [hm] at k1
    obtain ⟨c, rfl, -, -⟩ := h.2 t k1
    rw [content_token] at k2 k3
    obtain ⟨p, a, s1, s2, s3⟩ := hs c k1 k2
    obtain ⟨q, hq⟩ := expandRelative_some p (g.pathOf n) s1.2.2.1
    have := expand_ref s1 s2 s3 hq
    rw [this] at k3
    exact ⟨c, p, a, q, k1, s1, hq, (Option.some.inj k3).symm⟩
  · rintro ⟨c, p, a, q, k1, s1, hq, rfl⟩
    have hd : '.' ∈ c := by rw [s1.1]; simp
    obtain ⟨p', a', s1', s2, s3⟩ := hs c k1 hd
    obtain ⟨rfl, rfl⟩ := splitRef_unique s1 s1'
    exact ⟨_, (hm _).2 k1, by rw [content_token]; exact hd, by rw [content_token]; exact expand_ref s1 s2 s3 hq⟩

/-- **C109** (same conditions): whenever resolving a text at a node asks for an attribute of another node, the
sources of the text name this attribute. -/
theorem C109_complete_partial {N : Type} (g : Graph N) (n : N) (hn : ∃ s, g.pathOf n = '/' :: s)
    (hself : g.lookup (g.pathOf n) = some n)
    (hp : ∀ c, ∀ p ∈ g.plugins, p.detect (['$', '{'] ++ c ++ ['}']) = false) {text : Str} {ts : List Str}
    (h : FlatTokens text ts) (hs : ∀ c, ['$', '{'] ++ c ++ ['}'] ∈ ts → '.' ∈ c → Spelled c) {m : N} {v : Str}
    (hneed : Needs g (n, text) (m, v)) (hmn : m ≠ n) :
    ∃ refs q a, textSources g n text = .ok refs ∧ q ++ ['.'] ++ a ∈ refs ∧ g.lookup q = some m ∧ ValueText g m a v := by
  obtain ⟨refs, h1, h2⟩ := C109_sources_partial g n (fun e => by
    obtain ⟨s, hs⟩ := hn; rw [hs] at e; cases e) hp h hs
  cases hneed with
  | attrInner => exact absurd rfl hmn
  | pathInner => exact absurd rfl hmn
  | fileInner => exact absurd rfl hmn
  | fileAgain => exact absurd rfl hmn
  | contentsInner => exact absurd rfl hmn
  | contentsText => exact absurd rfl hmn
  | @attrValue _ _ _ c r q a _ ht hc hr href hl hv =>
    obtain ⟨⟨ts', hts', hmem⟩, -⟩ := ht
    have e : ts' = ts := by
      have a1 := C02_standalone_exact hts'
      have a2 := C02_standalone_exact h.1
      rw [a1] at a2
      simpa using a2
    subst e
    have ho : opens c = 0 := by
      obtain ⟨c', e, ho, -⟩ := h.2 _ hmem
      have := C01_token_roundtrip c
      rw [show makeTokenStr c = ['$', '{'] ++ c ++ ['}'] from rfl, e, content_token] at this
      rw [← this]; exact ho
    have e : r = c := (means_plain g n ho).1 hr
    subst e
    cases href with
    | other hsp hq => exact ⟨refs, q, a, h1, (h2 _).2 ⟨_, _, _, _, hmem, hsp, hq, rfl⟩, hl, hv⟩
    | own hno hq =>
      obtain ⟨s, hs'⟩ := hn
      rw [hs', C13_absolute_unchanged _ _ rfl] at hq
      cases hq
      rw [← hs', hself] at hl
      exact absurd (Option.some.inj hl).symm hmn

/-- The conditions are met by a value with an own reference and two references to other nodes. -/
example : ∃ refs, textSources demo true "${/n.a} ${val} ${../x.q}".toList = .ok refs ∧
    ∀ x, x ∈ refs ↔ x = "/n.a".toList ∨ x = "/n/x.q".toList := by
  have ha : IsAtomic "${/n.a}".toList := ⟨"/n.a".toList, by decide +kernel, by decide +kernel, by decide +kernel⟩
  have hb : IsAtomic "${val}".toList := ⟨"val".toList, by decide +kernel, by decide +kernel, by decide +kernel⟩
  have hc : IsAtomic "${../x.q}".toList := ⟨"../x.q".toList, by decide +kernel, by decide +kernel, by decide +kernel⟩
  have hf : FlatTokens "${/n.a} ${val} ${../x.q}".toList ["${/n.a}".toList, "${val}".toList, "${../x.q}".toList] := by
    refine ⟨?_, ?_⟩
    · exact .tok (g := []) (t := "${/n.a}".toList) (by decide +kernel) (atomic_isToken ha)
        (.tok (g := " ".toList) (t := "${val}".toList) (by decide +kernel) (atomic_isToken hb)
          (.tok (g := " ".toList) (t := "${../x.q}".toList) (rest := []) (by decide +kernel) (atomic_isToken hc)
            (.done (by decide +kernel))))
    · intro t ht
      simp only [List.mem_cons, List.not_mem_nil, or_false] at ht
      rcases ht with rfl | rfl | rfl
      · exact ha
      · exact hb
      · exact hc
  have cont : ∀ c t : Str, ['$', '{'] ++ c ++ ['}'] = t → c = getTokenContent t := fun c t h => by rw [← h, content_token]
  have s1 : SplitRef "/n.a".toList "/n".toList "a".toList := ⟨by decide, by decide, by decide, by decide⟩
  have s2 : SplitRef "../x.q".toList "../x".toList "q".toList := ⟨by decide, by decide, by decide, by decide⟩
  have hcs : ∀ c, ['$', '{'] ++ c ++ ['}'] ∈ ["${/n.a}".toList, "${val}".toList, "${../x.q}".toList] →
      c = "/n.a".toList ∨ c = "val".toList ∨ c = "../x.q".toList := by
    intro c h
    simp only [List.mem_cons, List.not_mem_nil, or_false] at h
    rcases h with h | h | h
    · exact .inl (by rw [cont c _ h]; decide +kernel)
    · exact .inr (.inl (by rw [cont c _ h]; decide +kernel))
    · exact .inr (.inr (by rw [cont c _ h]; decide +kernel))
  obtain ⟨refs, h1, h2⟩ := C109_sources_partial demo true (by decide +kernel) (fun _ _ h => by cases h) hf (by
    intro c h hd
    rcases hcs c h with rfl | rfl | rfl
    · exact ⟨_, _, s1, by decide, .inl ⟨"n".toList, rfl⟩⟩
    · exact absurd hd (by decide)
    · exact ⟨_, _, s2, by decide, .inr ⟨"..".toList, "x".toList, .inr rfl, by decide, by decide, by decide, by decide⟩⟩)
  refine ⟨refs, h1, fun x => ?_⟩
  rw [h2]
  constructor
  · rintro ⟨c, p, a, q, k1, k2, k3, rfl⟩
    rcases hcs c k1 with rfl | rfl | rfl
    · obtain ⟨rfl, rfl⟩ := splitRef_unique k2 s1
      rw [show Path.expandRelative (some "/n".toList) (demo.pathOf true) = some "/n".toList by decide +kernel] at k3
      cases k3; exact .inl rfl
    · exact absurd k2.1 (fun h => by
        have : '.' ∈ "val".toList := by rw [h]; simp
        exact absurd this (by decide))
    · obtain ⟨rfl, rfl⟩ := splitRef_unique k2 s2
      rw [show Path.expandRelative (some "../x".toList) (demo.pathOf true) = some "/n/x".toList by decide +kernel] at k3
      cases k3; exact .inr rfl
  · rintro (rfl | rfl)
    · exact ⟨_, _, _, "/n".toList, by decide +kernel, s1, by decide +kernel, rfl⟩
    · exact ⟨_, _, _, "/n/x".toList, by decide +kernel, s2, by decide +kernel, rfl⟩

/-- C109 violated: a file name is reported as an attribute of a node which is not there. -/
theorem C109_file_violation : textSources demo false "${file::a.txt}".toList = .ok ["/n/file::a.txt".toList] := by
  decide +kernel

/-- C109 violated: a reference to the parent by dots is reported with the dots in it, at another place than
the node it reads from. -/
theorem C109_dots_violation : RefNames demo true "...a".toList "/n".toList "a".toList ∧
    textSources demo true "${...a}".toList = .ok ["/n/x/...a".toList] :=
  ⟨.other (p := "..".toList) ⟨by decide, by decide, by decide, by decide⟩ (by decide +kernel), by decide +kernel⟩

/-- C109 violated: the attribute read by a reference with a token in it is not reported, and neither is the
reference standing before such a token. -/
theorem C109_nested_violation : Means demo false "${/n/${who}.val}".toList "V".toList ∧
    textSources demo false "${/n/${who}.val}".toList = .ok [] ∧
    textSources demo false "${/n/x.val}".toList = .ok ["/n/x.val".toList] ∧
    textSources demo false "${/n/x.val} ${/n/${who}.val}".toList = .ok [] :=
  ⟨⟨4, by decide +kernel⟩, by decide +kernel, by decide +kernel, by decide +kernel⟩

/-- C109 violated: the description says that references like `${self.b}` are left out; one is reported, as an
attribute of a child named `self`. -/
theorem C109_self_violation : textSources demo false "${self.b}".toList = .ok ["/n/self.b".toList] := by
  decide +kernel

/-- C109: the sources of an attribute are those of the text it holds; an attribute without a value has none. -/
theorem C109_attribute {N : Type} (g : Graph N) (n : N) (a : Str) :
    (∀ v, ValueText g n a v → attrSources g n a = textSources g n v) ∧
    ((g.attr n a = .missing ∨ g.attr n a = .none ∨ g.attr n a = .str []) → attrSources g n a = .ok []) := by
  have h0 : textSources g n [] = .ok [] := by
    unfold textSources
    have : tokensFrom g.plugins [] (some .attr) = [] := by
      unfold tokensFrom
      rw [show getAtomicTokens [] = [] by decide +kernel]
      rfl
    rw [this]
    rfl
  constructor
  · rintro v (⟨h, -⟩ | h) <;> (unfold attrSources; rw [h]; rfl)
  · rintro (h | h | h) <;> (unfold attrSources; rw [h]; exact h0)

/-- An attribute whose value is read; one whose value is not a text. -/
example : attrSources demo false "p".toList = .ok ["/n/x.q".toList] ∧ attrSources demo false "zero".toList = .ok [] ∧
    attrSources demo false "none".toList = .ok [] := by decide +kernel

end Nxt.Props
