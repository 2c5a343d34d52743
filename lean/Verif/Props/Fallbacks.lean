import Verif.Model.Fallbacks
import Verif.Spec.Fallbacks
import Verif.Props.Sources
/-!
# Property C110: file tokens at a depth of the layers
-/
namespace Nxt.Props
open Py Spec Tokens Resolve Sources Fallbacks

/-! ## C110 -/

/-- What is rendered, as gaps and tokens. -/
theorem renders_parse {m : Str → Str} {s out : Str} (h : Renders m s out) :
    ∃ segs tail, s = mixTok id segs tail ∧ out = mixTok m segs tail ∧ opens tail = 0 ∧
      (∀ p ∈ segs, opens p.1 = 0 ∧ IsToken p.2) ∧ Parse s (segs.map (·.2)) true := by
  induction h with
  | @done gap h => exact ⟨[], gap, rfl, rfl, h, by simp, .done h⟩
  | @tok gap t rest out h0 ht _ ih =>
    obtain ⟨segs, tail, h1, h2, h3, h4, h5⟩ := ih
    refine ⟨(gap, t) :: segs, tail, by rw [mixTok_cons, ← h1]; simp, by rw [mixTok_cons, ← h2]; simp, h3, ?_, ?_⟩
    · intro p hp
      rcases List.mem_cons.1 hp with rfl | hp
      · exact ⟨h0, ht⟩
      · exact h4 p hp
    · exact .tok h0 ht h5

/-- The text rendered is what replacing the tokens gives, in any order. -/
theorem renders_fold {m : Str → Str} {s out : Str} (h : Renders m s out) {ts : List Str} (hp : Parse s ts true)
    (l : List Str) (hl : ∀ t, t ∈ l ↔ t ∈ ts) (hinert : ∀ t ∈ ts, Inert (m t)) (hnest : NotNested ts)
    (hdollar : ∀ a b, s ≠ a ++ ['$', '$', '{'] ++ b) :
    l.foldl (fun s t => replace s t (m t)) s = out := by
  obtain ⟨segs, tail, hs, ho, htail, hsegs, hp'⟩ := renders_parse h
  have hts : ts = segs.map (·.2) := by
    have h1 := C02_standalone_exact hp
    have h2 := C02_standalone_exact hp'
    rw [h1] at h2
    simpa using h2
  have hmem : ∀ p ∈ segs, p.2 ∈ ts := fun p hp => by rw [hts]; exact List.mem_map_of_mem hp
  have htok : ∀ p ∈ segs, IsToken p.2 := fun p hp => (hsegs p hp).2
  have hgaps := gaps_ok htok (hs ▸ hdollar)
  have key := foldl_mixTok (m := m) segs tail (fun p hp => ⟨(hsegs p hp).1, hgaps p hp⟩) htail htok
    (fun p hp => hinert _ (hmem p hp)) l (fun t ht => by
      rw [hl, hts] at ht
      obtain ⟨p, hp, rfl⟩ := List.mem_map.1 ht
      exact ⟨p, hp, rfl⟩)
    (fun t ht p hp a b e => hnest t ((hl t).1 ht) p.2 (hmem p hp) a b e) []
  have e1 : mixTok (fun x => if x ∈ ([] : List Str) then m x else x) segs tail = s := by
    rw [hs]
    exact mixTok_congr segs tail fun p _ => by simp
  have e2 : mixTok (fun x => if x ∈ [] ++ l then m x else x) segs tail = mixTok m segs tail :=
    mixTok_congr segs tail fun p hp => by simp [(hl p.2).2 (hmem p hp)]
  rw [e1, e2] at key
  rw [key, ho]

/-- Tokens without tokens in them are not nested. -/
theorem flat_notNested {s : Str} {ts : List Str} (h : FlatTokens s ts) : NotNested ts := by
  intro t ht t' ht' a b e
  obtain ⟨c, rfl, _, _⟩ := h.2 t ht
  obtain ⟨c', hc', ho', _⟩ := h.2 t' ht'
  cases a with
  | nil => rfl
  | cons x a =>
    exfalso
    rw [hc'] at e
    simp only [List.cons_append, List.nil_append, List.append_assoc, List.cons.injEq] at e
    obtain ⟨rfl, e⟩ := e
    cases a with
    | nil => simp at e
    | cons y a =>
      simp only [List.cons_append, List.cons.injEq] at e
      obtain ⟨rfl, e⟩ := e
      -- the opener is in the content
      have ho : opens (c' ++ ['}']) = 0 := by
        rw [opens_append (by rintro ⟨_, h⟩; simp at h), ho']
        decide
      exact (opens_eq_zero_iff _).1 ho a (c ++ '}' :: b) (by rw [e]; simp [PREFIX])

/-- No plugin of this module claims a whole token. -/
theorem plugins_whole (c : Str) : ∀ p ∈ PLUGINS, p.detect (['$', '{'] ++ c ++ ['}']) = false := by
  intro p hp
  simp only [PLUGINS, List.map_cons, List.map_nil, List.mem_cons, List.not_mem_nil, or_false] at hp
  rcases hp with rfl | rfl | rfl <;> rfl

/-- No plugin of this module claims the content of an attribute reference. -/
theorem plugins_attr {c : Str} (h : AttrContent c) (hl : ∀ u, c ≠ "filelist::".toList ++ u) :
    ∀ p ∈ PLUGINS, p.detect c = false := by
  intro p hp
  have key : ∀ pre : Str, (∀ u, c ≠ pre ++ u) → startsWith c pre = false := by
    intro pre hpre
    rw [Bool.eq_false_iff]
    intro h
    obtain ⟨u, hu⟩ := startsWith_iff.1 h
    exact hpre u hu
  simp only [PLUGINS, List.map_cons, List.map_nil, List.mem_cons, List.not_mem_nil, or_false] at hp
  rcases hp with rfl | rfl | rfl
  · exact key _ h.2.1
  · exact key _ hl
  · exact key _ h.2.2.1

theorem tokensFrom_mem {s : Str} {ts : List Str} (h : FlatTokens s ts) (t : Str) :
    t ∈ tokensFrom PLUGINS s (some .attr) ↔ t ∈ ts := by
  rw [C109_kind_violation PLUGINS s plugins_whole .attr, if_pos rfl]
  exact C109_flat_tokens h t

theorem refValue_names {P : Past} (hpath : P.path ≠ []) {c q a v : Str} (h : PastNames P.path c q a)
    (hv : P.value q a = some v) : refValue P c = .ok v := by
  unfold refValue
  cases h with
  | other hs he =>
    rcases partition_ref c with ⟨p', a', hs', hp⟩ | ⟨hno, _⟩
    · obtain ⟨rfl, rfl⟩ := splitRef_unique hs hs'
      rw [hp]
      simp only [he, hv]
      rw [if_pos ⟨hs.2.2.1, hs.2.2.2⟩]
    · exact absurd hs (hno _ _)
  | own hno he =>
    rcases partition_ref c with ⟨p', a', hs', hp⟩ | ⟨_, hp⟩
    · exact absurd hs' (hno _ _)
    · split
      · rename_i p a heq
        have := hp p a heq
        rw [if_neg (fun h => by rcases this with h' | h'; exact h.1 h'; exact h.2 h')]
        simp only [he, hv]
      · simp only [he, hv]

/-- A text without openers is left as it is. -/
theorem histAttr_plain {P : Past} (hord : ∀ l x, x ∈ P.ord l ↔ x ∈ l) {s : Str} (h : opens s = 0) (f : Nat) :
    histAttr P (f + 1) s = .ok s := by
  have h0 : P.ord (tokensFrom PLUGINS s (some .attr)) = [] := by
    apply List.eq_nil_iff_forall_not_mem.2
    intro t ht
    rw [hord, tokensFrom_mem (ts := []) ⟨.done h, by simp⟩] at ht
    cases ht
  rw [histAttr, h0]
  rfl

theorem settle_fold {P : Past} {rec : Str → Out Str} {v w : Str} (h1 : rec v = .ok w) (h2 : rec w = .ok w) (ts : List Str)
    (hk : ∀ t ∈ ts, tokenKind PLUGINS (getTokenContent t) = .attr) (x : Str) (hx : x = v ∨ x = w) :
    ts.foldl (settleStep P rec) (.ok x) = .ok (if ts = [] then x else w) := by
  induction ts generalizing x with
  | nil => rfl
  | cons t ts ih =>
    have : settleStep P rec (.ok x) t = .ok w := by
      simp only [settleStep, Out.bind, hk t (List.mem_cons_self ..)]
      rcases hx with rfl | rfl
      · exact h1
      · exact h2
    rw [List.foldl_cons, this, ih (fun t ht => hk t (List.mem_cons_of_mem _ ht)) w (.inr rfl)]
    simp

theorem attr_fold {P : Past} {rec : Str → Out Str} {m : Str → Str} (ts : List Str)
    (h : ∀ t ∈ ts, makeTokenStr (getTokenContent t) = t ∧
      ((refValue P (getTokenContent t)).bind (settle P rec)) = .ok (m t)) (x : Str) :
    ts.foldl (attrStep P rec) (.ok x) = .ok (ts.foldl (fun s t => replace s t (m t)) x) := by
  induction ts generalizing x with
  | nil => rfl
  | cons t ts ih =>
    obtain ⟨e1, e2⟩ := h t (List.mem_cons_self ..)
    have : attrStep P rec (.ok x) t = .ok (replace x t (m t)) := by
      simp only [attrStep, Out.bind]
      cases hv : refValue P (getTokenContent t) with
      | deep => rw [hv] at e2; cases e2
      | raised => rw [hv] at e2; cases e2
      | ok v =>
        rw [hv] at e2
        simp only [Out.bind] at e2 ⊢
        rw [e2]
        simp only [e1]
    rw [List.foldl_cons, this, List.foldl_cons, ih (fun t ht => h t (List.mem_cons_of_mem _ ht))]

/-- All tokens asked for in a value are given. -/
theorem more_eq (v : Str) : getStandaloneTokens v [[], FILE] = standaloneAll v := by
  unfold getStandaloneTokens
  rw [List.filter_eq_self]
  intro t ht
  obtain ⟨c, ts, rfl, -, -⟩ := hasToken_of_mem ht
  simp only [List.any_cons, Bool.or_eq_true]
  left
  simp [PREFIX, startsWith]

/-- **C110** (partial) At a depth of the layers a text with attribute references becomes the text with every
reference replaced by the value it names at this depth, and so on within the values; the order in which the
tokens of a text are taken does not matter.  What is missing: no token is within another, none is of a
special kind, `$${` does not occur, and what replaces a token contains no opener; and the references in
values are all read at the first node, which is not where they stand.  Without these it is false, see the
violations below. -/
theorem C110_recalled_partial {P : Past} (hord : ∀ l x, x ∈ P.ord l ↔ x ∈ l) (hpath : P.path ≠ []) {s out : Str}
    (h : Recalls P.path P.value s out) : ∃ f, ∀ f' ≥ f, histAttr P f' s = .ok out := by
  induction h with
  | @text s out ts v m q a hflat hd hac hnames hval hin hsub hren ih =>
    have htok : ∀ t ∈ ts, ∃ c, t = ['$', '{'] ++ c ++ ['}'] := fun t ht => by
      obtain ⟨c, rfl, _⟩ := hflat.2 t ht
      exact ⟨c, rfl⟩
    obtain ⟨f, hf⟩ := exists_bound
      (P := fun t f => (refValue P (getTokenContent t)).bind (settle P (histAttr P f)) = .ok (m t)) ts (by
      intro t ht
      obtain ⟨c, rfl⟩ := htok t ht
      obtain ⟨f, hf⟩ := ih c ht
      refine ⟨f + 1, fun f' hf' => ?_⟩
      obtain ⟨k, rfl⟩ : ∃ k, f' = k + 1 := ⟨f' - 1, by omega⟩
      rw [content_token, refValue_names hpath (hnames c ht) (hval c ht)]
      simp only [Out.bind]
      unfold settle
      rw [more_eq]
      cases hsub c ht with
      | @text _ _ ts' v' m' q' a' hflat' hd' hac' hnames' hval' hin' hsub' hren' =>
        have hst : standaloneAll (v c) = ts' := by rw [C02_standalone_exact hflat'.1]; rfl
        rw [hst, settle_fold (hf (k + 1) (by omega)) (histAttr_plain hord (hin c ht).1 k) ts' _ _ (.inl rfl)]
        · by_cases h0 : ts' = []
          · rw [if_pos h0]
            obtain ⟨segs, tail, e1, e2, _, _, e5⟩ := renders_parse hren'
            have := C02_standalone_exact e5
            rw [hst, h0] at this
            simp at this
            have hsegs : segs = [] := this
            rw [e1, e2, hsegs]
            rfl
          · rw [if_neg h0]
        · intro t' ht'
          obtain ⟨c', rfl, _⟩ := hflat'.2 t' ht'
          rw [content_token]
          have := hac' c' ht'
          exact kind_attr this.1 (plugins_attr this.1 this.2))
    refine ⟨f + 1, fun f' hf' => ?_⟩
    obtain ⟨k, rfl⟩ : ∃ k, f' = k + 1 := ⟨f' - 1, by omega⟩
    have hmem : ∀ t, t ∈ P.ord (tokensFrom PLUGINS s (some .attr)) ↔ t ∈ ts := fun t => by
      rw [hord, tokensFrom_mem hflat]
    rw [histAttr, attr_fold (m := m)]
    · rw [renders_fold hren hflat.1 _ hmem _ (flat_notNested hflat) hd]
      intro t ht
      obtain ⟨c, rfl⟩ := htok t ht
      exact hin c ht
    · intro t ht
      rw [hmem] at ht
      obtain ⟨c, rfl⟩ := htok t ht
      refine ⟨by rw [content_token]; rfl, hf k (by omega) _ ht⟩

theorem past_refNames {N : Type} {g : Graph N} {k : N} {c q a : Str} (h : PastNames (g.pathOf k) c q a) :
    RefNames g k c q a := by
  cases h with
  | other hs he => exact .other hs he
  | own hno he => exact .own hno he

/-- A reference written from the root on names the same at every node. -/
theorem past_rooted {N : Type} {g : Graph N} {k : N} {path c q a u a' : Str} (hs' : SplitRef c ('/' :: u) a')
    (h : PastNames path c q a) : RefNames g k c q a := by
  cases h with
  | other hs he =>
    obtain ⟨rfl, rfl⟩ := splitRef_unique hs' hs
    refine .other hs ?_
    rw [C13_absolute_unchanged _ _ rfl] at he ⊢
    exact he
  | own hno _ => exact absurd hs' (hno _ _)

/-- **C110** (partial) Where the values at the depth are those of a graph, and all references within values
are written from the root on, the text is the one `resolve` gives.  What is missing is as in
`C110_recalled_partial`. -/
theorem C110_agrees_partial {N : Type} (g : Graph N) (hg : ∀ k, g.pathOf k ≠ []) (hpl : g.plugins = []) {n : N}
    {value : Str → Str → Option Str}
    (hval : ∀ q a v, value q a = some v →
      (v ≠ [] → ∃ k, g.lookup q = some k ∧ ValueText g k a v) ∧
      (v = [] → g.lookup q = none ∨
        ∃ k, g.lookup q = some k ∧ (g.attr k a = .missing ∨ g.attr k a = .none ∨ g.attr k a = .str [])))
    (hroot : ∀ q a v, value q a = some v → FromRoot v) {s out : Str} (h : Recalls (g.pathOf n) value s out) :
    Means g n s out := by
  suffices key : ∀ k, (g.pathOf k = g.pathOf n ∨ FromRoot s) → Means g k s out from key n (.inl rfl)
  induction h with
  | @text s out ts v m q a hflat hd hac hnames hvals hin hsub hren ih =>
    intro k hk
    have hin' : ∀ t ∈ ts, Inert (m t) := by
      intro t ht
      obtain ⟨c, rfl, _⟩ := hflat.2 t ht
      exact hin c ht
    obtain ⟨out', hr', hM⟩ := C66_substitution_partial g (hg k) hflat.1 (m := m) (by
      intro c hc
      have hAC := (hac c hc).1
      obtain ⟨c', e, ho, _⟩ := hflat.2 _ hc
      have : c = c' := by simpa using e
      subst this
      refine .attr hAC ((means_plain g k ho).2 rfl) ?_
      have hN : RefNames g k c (q c) (a c) := by
        rcases hk with hk | hk
        · exact past_refNames (hk ▸ hnames c hc)
        · obtain ⟨u, a', hs'⟩ := hk ts c hflat.1 hc
          exact past_rooted hs' (hnames c hc)
      have hv := hval _ _ _ (hvals c hc)
      by_cases h0 : v c = []
      · have hm0 : m (['$', '{'] ++ c ++ ['}']) = [] := by
          have hs := hsub c hc
          rw [h0] at hs
          cases hs with
          | text hflat' _ _ _ _ _ _ hren' =>
            obtain ⟨segs, tail, e1, e2, _, h4, _⟩ := renders_parse hren'
            cases segs with
            | nil =>
              rw [e2]
              simp only [mixTok, List.map_nil, List.flatten_nil, List.nil_append] at e1 ⊢
              exact e1.symm
            | cons p segs =>
              obtain ⟨r, hr⟩ := (h4 p (List.mem_cons_self ..)).2.1
              obtain ⟨p1, p2⟩ := p
              rw [mixTok_cons] at e1
              simp only at hr
              simp [hr] at e1
        rw [hm0]
        rcases hv.2 h0 with hl | ⟨k', hl, ha⟩
        · exact .noNode hN hl
        · exact .noValue hN hl ha
      · obtain ⟨k', hl, ha⟩ := hv.1 h0
        exact .value hN hl ha (ih c hc k' (.inr (hroot _ _ _ (hvals c hc))))) (fun c _ p hp => by rw [hpl] at hp; cases hp)
      hin' (flat_notNested hflat) hd
    have e1 := renders_fold hren hflat.1 ts (fun _ => Iff.rfl) hin' (flat_notNested hflat) hd
    have e2 := renders_fold hr' hflat.1 ts (fun _ => Iff.rfl) hin' (flat_notNested hflat) hd
    rw [← e1, e2]
    exact hM

/-- Replacing a whole text. -/
theorem replace_whole (t : Str) (h : t ≠ []) (x : Str) : replace t t x = x := by
  cases t with
  | nil => exact absurd rfl h
  | cons c t =>
    have := FilePaths.replaceGo_match c t x []
    rw [List.append_nil] at this
    rw [replace, this]
    simp [replaceGo]

/-- **C110** A text that is one file token becomes the file found for what its content becomes, and for an
empty outcome the file found for `<invalid>`. -/
theorem C110_file {P : Past} (hord : ∀ l x, x ∈ P.ord l ↔ x ∈ l) (hpath : P.path ≠ []) {u r : Str}
    (h : Recalls P.path P.value u r) (htok : IsToken ("${file::".toList ++ u ++ "}".toList)) :
    ∃ f, ∀ f' ≥ f, fileAt P f' "file::".toList ("${file::".toList ++ u ++ "}".toList) =
      .ok (P.root (if r = [] ∧ u ≠ [] then "<invalid>".toList else r)) := by
  obtain ⟨f, hf⟩ := C110_recalled_partial hord hpath h
  refine ⟨f, fun f' hf' => ?_⟩
  have e0 : "${file::".toList ++ u ++ "}".toList = ['$', '{'] ++ ("file::".toList ++ u) ++ ['}'] := by
    have e1 : "${file::".toList = ['$', '{'] ++ "file::".toList := by decide
    have e2 : "}".toList = ['}'] := by decide
    rw [e1, e2]; simp only [List.append_assoc]
  rw [e0] at htok ⊢
  have hst : standaloneAll (['$', '{'] ++ ("file::".toList ++ u) ++ ['}']) = [['$', '{'] ++ ("file::".toList ++ u) ++ ['}']] := by
    have := C02_standalone_exact (.tok (g := []) (rest := []) (by decide) htok (.done (by decide)))
    simpa using this
  have hg : getStandaloneTokens (['$', '{'] ++ ("file::".toList ++ u) ++ ['}']) ["file::".toList] =
      [['$', '{'] ++ ("file::".toList ++ u) ++ ['}']] := by
    unfold getStandaloneTokens
    rw [hst]
    rfl
  have hpt : partition? "file::".toList ("file::".toList ++ u) = some ([], u) := by
    rw [show "file::".toList = 'f' :: "ile::".toList from by decide]
    simp only [List.cons_append, partition?]
    rw [if_pos (by simp)]
    simp
  unfold fileAt histFile
  simp only [hg]
  rw [if_neg (by simp)]
  simp only [List.foldl_cons, List.foldl_nil, fileStep, Out.bind, content_token, hpt, hf f' hf']
  rw [replace_whole _ (by simp)]
  rfl

/-- **C110** A text without a file token is taken as a path itself, whatever other tokens are in it; they stay. -/
theorem C110_no_file (P : Past) (f : Nat) {v : Str} {ts : List Str} (hp : Parse v ts true)
    (hno : ∀ u, "${file::".toList ++ u ∉ ts) (hv : v ≠ []) : fileAt P f "file::".toList v = .ok (P.root v) := by
  have hg : getStandaloneTokens v ["file::".toList] = [] := by
    unfold getStandaloneTokens
    rw [C02_standalone_exact hp, if_pos rfl, List.filter_eq_nil_iff]
    intro t ht h
    simp only [List.any_cons, List.any_nil, Bool.or_false] at h
    obtain ⟨u, hu⟩ := startsWith_iff.1 h
    exact hno u (by rw [hu] at ht; exact ht)
  unfold fileAt histFile
  simp only [hg, hv, ne_eq, not_false_eq_true, and_self, if_true, List.foldl_nil]

/-- Three attributes of three nodes, seen from `/n`. -/
def examplePast : Past where
  path := "/n".toList
  value q a :=
    if q = "/m".toList ∧ a = "a".toList then some "<${b}>".toList
    else if q = "/m".toList ∧ a = "b".toList then some "right".toList
    else if q = "/n".toList ∧ a = "b".toList then some "wrong".toList
    else if q = "/m".toList ∧ a = "f".toList then some "dir/${file::x} and more".toList
    else if q = "/m".toList ∧ a = "who".toList then some "b".toList
    else if q = "/k".toList ∧ a = "a".toList then some "[${/m.b}-${/n.b}]".toList
    else some []
  root f := "/root/".toList ++ f
  ord l := l.reverse

/-- The same values as a graph. -/
def exampleGraph : Graph Str where
  pathOf n := if n = [] then ['/'] else n
  lookup p := some p
  attr n a := match examplePast.value n a with | some v => .str v | none => .missing
  isProtected _ := false
  color _ := none
  expandFile p := "/root/".toList ++ p
  fileExists _ := true
  contents _ := none
  plugins := []

/-- C110: a text with references into a value with references. -/
example : histAttr examplePast 3 "x ${/k.a} ${b} ${/m.b}".toList = .ok "x [right-wrong] wrong right".toList := by
  decide +kernel

/-- C110: the hypotheses of `C110_recalled_partial` and `C110_agrees_partial` are met. -/
theorem example_recalls {value : Str → Str → Option Str} (v1 : value "/k".toList "a".toList = some "[${/m.b}-${/n.b}]".toList)
    (v2 : value "/m".toList "b".toList = some "right".toList) (v3 : value "/n".toList "b".toList = some "wrong".toList) :
    Recalls "/n".toList value "x ${/k.a}".toList "x [right-wrong]".toList := by
  have at1 : IsAtomic "${/k.a}".toList := ⟨"/k.a".toList, by decide +kernel, by decide +kernel, by decide +kernel⟩
  have at2 : IsAtomic "${/m.b}".toList := ⟨"/m.b".toList, by decide +kernel, by decide +kernel, by decide +kernel⟩
  have at3 : IsAtomic "${/n.b}".toList := ⟨"/n.b".toList, by decide +kernel, by decide +kernel, by decide +kernel⟩
  have nodollar : ∀ s : Str, (∀ i < s.length, ¬ (s.drop i).take 3 = ['$', '$', '{']) → ∀ x y, s ≠ x ++ ['$', '$', '{'] ++ y := by
    intro s h x y e
    refine h x.length (by rw [e]; simp) ?_
    rw [e, List.append_assoc, List.drop_left]
    rfl
  have attrC : ∀ c r : Str, c = '/' :: r → AttrContent c ∧ ∀ u, c ≠ "filelist::".toList ++ u := by
    rintro c r rfl
    refine ⟨⟨by simp, fun u h => by simp at h, fun u h => by simp at h, fun u h => by simp at h, by simp, by simp⟩,
      fun u h => by simp at h⟩
  have names : ∀ x y : Char, x ≠ '/' → y ≠ '.' → PastNames "/n".toList ['/', x, '.', y] ['/', x] [y] := by
    intro x y _ hy
    refine .other (p := ['/', x]) ⟨by simp, by simpa using Ne.symm hy, by simp, by simp⟩ ?_
    exact C13_absolute_unchanged _ _ rfl
  have plain : ∀ s : Str, opens s = 0 → Recalls "/n".toList value s s := by
    intro s h
    refine .text (ts := []) (v := id) (m := id) (q := id) (a := id) ⟨.done h, by simp⟩ ?_ (by simp) (by simp) (by simp)
      (by simp) (by simp) (.done h)
    intro x y e
    rw [opens_eq_zero_iff] at h
    exact h (x ++ ['$']) y (by rw [e]; simp [PREFIX])
  have inner : Recalls "/n".toList value "[${/m.b}-${/n.b}]".toList "[right-wrong]".toList := by
    refine .text (ts := ["${/m.b}".toList, "${/n.b}".toList])
      (v := fun c => if c = "/m.b".toList then "right".toList else "wrong".toList)
      (m := fun c => if c = "${/m.b}".toList then "right".toList else "wrong".toList)
      (q := fun c => c.take 2) (a := fun c => c.drop 3) ⟨?_, ?_⟩ (nodollar _ (by decide +kernel)) ?_ ?_ ?_ ?_ ?_ ?_
    · exact .tok (g := "[".toList) (t := "${/m.b}".toList) (by decide +kernel) (atomic_isToken at2)
        (.tok (g := "-".toList) (t := "${/n.b}".toList) (rest := "]".toList) (by decide +kernel) (atomic_isToken at3)
          (.done (by decide +kernel)))
    · intro t ht
      simp only [List.mem_cons, List.not_mem_nil, or_false] at ht
      rcases ht with rfl | rfl
      · exact at2
      · exact at3
    all_goals try
      intro c hc
      have hc' : c = "/m.b".toList ∨ c = "/n.b".toList := by
        simp only [List.mem_cons, List.not_mem_nil, or_false] at hc
        rcases hc with h | h
        · left; have := congrArg getTokenContent h; rw [content_token] at this; exact this.trans (by decide +kernel)
        · right; have := congrArg getTokenContent h; rw [content_token] at this; exact this.trans (by decide +kernel)
    · rcases hc' with rfl | rfl
      · exact attrC _ "m.b".toList (by decide)
      · exact attrC _ "n.b".toList (by decide)
    · rcases hc' with rfl | rfl
      · exact names 'm' 'b' (by decide) (by decide)
      · exact names 'n' 'b' (by decide) (by decide)
    · rcases hc' with rfl | rfl
      · exact v2
      · exact v3
    · rcases hc' with rfl | rfl
      · exact ⟨by decide +kernel, by decide +kernel⟩
      · exact ⟨by decide +kernel, by decide +kernel⟩
    · rcases hc' with rfl | rfl
      · exact plain "right".toList (by decide +kernel)
      · exact plain "wrong".toList (by decide +kernel)
    · exact .tok (gap := "[".toList) (t := "${/m.b}".toList) (by decide +kernel) (atomic_isToken at2)
        (.tok (gap := "-".toList) (t := "${/n.b}".toList) (rest := "]".toList) (by decide +kernel) (atomic_isToken at3)
          (.done (by decide +kernel)))
  refine .text (ts := ["${/k.a}".toList]) (v := fun _ => "[${/m.b}-${/n.b}]".toList)
    (m := fun _ => "[right-wrong]".toList) (q := fun _ => "/k".toList) (a := fun _ => "a".toList) ⟨?_, ?_⟩
    (nodollar _ (by decide +kernel)) ?_ ?_ ?_ ?_ ?_ ?_
  · exact .tok (g := "x ".toList) (t := "${/k.a}".toList) (rest := []) (by decide +kernel) (atomic_isToken at1)
      (.done (by decide +kernel))
  · intro t ht
    simp only [List.mem_singleton] at ht
    rw [ht]; exact at1
  · intro c hc
    simp only [List.mem_singleton] at hc
    have := congrArg getTokenContent hc
    rw [content_token] at this
    rw [this]
    exact attrC _ "k.a".toList (by decide +kernel)
  · intro c hc
    simp only [List.mem_singleton] at hc
    have := congrArg getTokenContent hc
    rw [content_token] at this
    rw [this]
    exact names 'k' 'a' (by decide) (by decide)
  · intro c _; exact v1
  · intro c _; exact ⟨by decide +kernel, by decide +kernel⟩
  · intro c _; exact inner
  · exact .tok (gap := "x ".toList) (t := "${/k.a}".toList) (rest := []) (by decide +kernel) (atomic_isToken at1)
      (.done (by decide +kernel))

example : ∃ f, ∀ f' ≥ f, histAttr examplePast f' "x ${/k.a}".toList = .ok "x [right-wrong]".toList :=
  C110_recalled_partial (fun l x => List.mem_reverse) (by decide)
    (example_recalls (by decide +kernel) (by decide +kernel) (by decide +kernel))

/-- C110: a graph whose values have references from the root on only, or none. -/
def rootedValue (q a : Str) : Option Str :=
  if q = "/k".toList ∧ a = "a".toList then some "[${/m.b}-${/n.b}]".toList
  else if q = "/m".toList ∧ a = "b".toList then some "right".toList
  else if q = "/n".toList ∧ a = "b".toList then some "wrong".toList
  else some []

example : Means { exampleGraph with attr := fun n a => match rootedValue n a with | some v => .str v | none => .missing }
    "/n".toList "x ${/k.a}".toList "x [right-wrong]".toList := by
  refine C110_agrees_partial _ ?_ rfl (value := rootedValue) ?_ ?_
    (example_recalls (by decide +kernel) (by decide +kernel) (by decide +kernel))
  · intro k
    show (if k = [] then ['/'] else k) ≠ []
    split
    · simp
    · assumption
  · intro q a v hv
    refine ⟨fun h => ⟨q, rfl, .inl ⟨?_, h⟩⟩, fun h => .inr ⟨q, rfl, .inr (.inr ?_)⟩⟩
    · show (match rootedValue q a with | some v => Resolve.Attr.str v | none => .missing) = _
      rw [hv]
    · show (match rootedValue q a with | some v => Resolve.Attr.str v | none => .missing) = _
      rw [hv, h]
  · intro q a v hv ts c hp hc
    have hst := C02_standalone_exact hp
    rw [if_pos rfl] at hst
    have key : v = "[${/m.b}-${/n.b}]".toList ∨ standaloneAll v = [] := by
      unfold rootedValue at hv
      split at hv
      · left; simpa using hv.symm
      · right
        split at hv
        · rw [← Option.some.inj hv]; decide +kernel
        · split at hv
          · rw [← Option.some.inj hv]; decide +kernel
          · rw [← Option.some.inj hv]; decide +kernel
    rcases key with rfl | h0
    · have h1 : standaloneAll "[${/m.b}-${/n.b}]".toList = ["${/m.b}".toList, "${/n.b}".toList] := by decide +kernel
      rw [← hst, h1] at hc
      simp only [List.mem_cons, List.not_mem_nil, or_false] at hc
      rcases hc with h | h
      · have := congrArg getTokenContent h
        rw [content_token] at this
        rw [this]
        exact ⟨"m".toList, "b".toList, by decide +kernel, by decide +kernel, by decide +kernel, by decide +kernel⟩
      · have := congrArg getTokenContent h
        rw [content_token] at this
        rw [this]
        exact ⟨"n".toList, "b".toList, by decide +kernel, by decide +kernel, by decide +kernel, by decide +kernel⟩
    · rw [← hst, h0] at hc
      cases hc

/-- C110: a file token with a reference, and one for which nothing is found. -/
example : fileAt examplePast 3 "file::".toList "${file::d/${/m.b}.txt}".toList = .ok "/root/d/right.txt".toList ∧
    fileAt examplePast 3 "file::".toList "${file::${/q.b}}".toList = .ok "/root/<invalid>".toList := by
  decide +kernel

/-- C110: a text with a reference only. -/
example : fileAt examplePast 3 "file::".toList "d/${/m.b}".toList = .ok "/root/d/${/m.b}".toList ∧
    standaloneAll "d/${/m.b}".toList = ["${/m.b}".toList] := by
  decide +kernel

/-- **C110** violated: a reference in the value of another node is read at the first node, so that the text
is another than the one `resolve` gives. -/
theorem C110_place_violation :
    histAttr examplePast 3 "${/m.a}".toList = .ok "<wrong>".toList ∧
    Means exampleGraph "/n".toList "${/m.a}".toList "<right>".toList :=
  ⟨by decide +kernel, 4, by decide +kernel⟩

/-- **C110** violated: of a value with a file token only the file is kept, the text around it is lost. -/
theorem C110_around_violation :
    histAttr examplePast 3 "${/m.f}".toList = .ok "/root/x".toList ∧
    Means exampleGraph "/n".toList "${/m.f}".toList "dir//root/x and more".toList :=
  ⟨by decide +kernel, 4, by decide +kernel⟩

/-- **C110** violated: the reference made by a token within a reference is not followed. -/
theorem C110_nested_violation :
    histAttr examplePast 3 "${/m.${/m.who}}".toList = .ok "${/m.b}".toList ∧
    Means exampleGraph "/n".toList "${/m.${/m.who}}".toList "right".toList :=
  ⟨by decide +kernel, 4, by decide +kernel⟩

/-- **C110** violated: the token for the path of the node is read as a reference to an attribute of this
name, and is lost. -/
theorem C110_special_violation :
    histAttr examplePast 3 "${_nxtpath}".toList = .ok [] ∧
    Means exampleGraph "/n".toList "${_nxtpath}".toList "/n".toList :=
  ⟨by decide +kernel, 4, by decide +kernel⟩

end Nxt.Props
