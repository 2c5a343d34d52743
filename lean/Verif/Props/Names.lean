import Verif.Lemmas.Names
/-!
# Properties C18–C21: generated names
-/
namespace Nxt.Props
open Py Path Names Spec

/-! ## C20 -/

/-- C20: a legalised name is non-empty, has only word characters and does not start with a digit. -/
theorem C20_legal (cc : CharClass) (hcc : cc.Ok) (n l : Str) (h : legalize cc n = some l) :
    (∀ c ∈ l, cc.isWord c = true) ∧ ∃ c cs, l = c :: cs ∧ cc.isDigit c = false :=
  ⟨(legalize_word hcc h).2.1, (legalize_word hcc h).2.2⟩

/-- C20: legal names are unchanged, so legalising twice is legalising once. -/
theorem C20_legal_unchanged (cc : CharClass) (c : Char) (cs : Str)
    (hw : ∀ x ∈ c :: cs, cc.isWord x = true) (hd : cc.isDigit c = false) :
    legalize cc (c :: cs) = some (c :: cs) := by
  simp only [legalize, hd, Bool.false_eq_true, if_false, Option.some.injEq]
  rw [List.map_congr_left (g := id) (fun x hx => by simp [hw x hx])]
  simp

/-- C20: legalising twice is legalising once. -/
theorem C20_idempotent (cc : CharClass) (hcc : cc.Ok) (n l : Str) (h : legalize cc n = some l) :
    legalize cc l = some l := by
  obtain ⟨h1, c, cs, rfl, h2⟩ := C20_legal cc hcc n l h
  exact C20_legal_unchanged cc c cs h1 h2

/-- C20: exactly the empty name raises; all others are legalised, keeping the length or adding one
leading underscore. -/
theorem C20_total (cc : CharClass) (n : Str) :
    (legalize cc n = none ↔ n = []) ∧
    ∀ l, legalize cc n = some l → l.length = n.length ∨ l.length = n.length + 1 := by
  cases n with
  | nil => simp [legalize]
  | cons c cs =>
    refine ⟨by simp [legalize], ?_⟩
    intro l h
    simp only [legalize, Option.some.injEq] at h
    rw [← h]
    split <;> simp

/-- The ASCII part of the character classes, for the examples. -/
def asciiClass : CharClass where
  isDigit c := "0123456789".toList.contains c
  isWord c := c.isAlphanum || c == '_'

theorem asciiClass_ok : asciiClass.Ok where
  digit_word := by
    intro c h
    have : ∀ c ∈ "0123456789".toList, (c.isAlphanum || c == '_') = true := by decide
    exact this c (by simpa [asciiClass] using h)
  underscore_word := by decide
  underscore_digit := by decide
  slash := by decide
  dot := by decide
  ascii := by intro c hc; simpa [asciiClass] using hc

example : legalize asciiClass "1 a.b".toList = some "_1_a_b".toList := by decide +kernel

/-! ## C18 -/

/-- C18: for every request except the empty text, every well formed parent and every finite set of
node paths the search stops (after at most two more rounds than there are nodes); the name is
legal, is not the reserved one, is free under the parent, and it is the wanted name if that is free, else the
wanted name with the least number from 2 on which is free. -/
theorem C18_unique_node_name (cc : CharClass) (hcc : cc.Ok) (paths : List Str) (ps : List Str)
    (hps : Names ps) (name : Option Str) (hne : name ≠ some []) (fuel : Nat)
    (hf : paths.length + 2 ≤ fuel) :
    ∃ want r, wantedNodeName cc name = some want ∧
      uniqueNodeName cc paths (render ps) name fuel = .ok r ∧
      IsName r ∧ (∀ c ∈ r, cc.isWord c = true ∨ c ∈ "node".toList) ∧ render (ps ++ [r]) ∉ paths ∧
      (render (ps ++ [want]) ∉ paths → r = want) ∧
      (render (ps ++ [want]) ∈ paths → ∃ k, 2 ≤ k ∧ r = want ++ dec k ∧
        ∀ j, 2 ≤ j → j < k → render (ps ++ [want ++ dec j]) ∈ paths) := by
  have hdig : ∀ n, ∀ c ∈ dec n, cc.isWord c = true := fun n c hc =>
    hcc.digit_word c (hcc.ascii c (dec_digits n c hc))
  have hwant : ∃ want, wantedNodeName cc name = some want ∧ IsName want ∧
      (∀ c ∈ want, cc.isWord c = true ∨ c ∈ "node".toList) := by
    cases name with
    | none => exact ⟨"node".toList, rfl, by decide, fun c hc => .inr hc⟩
    | some n =>
      have hn : n ≠ [] := fun h => hne (by rw [h])
      cases hl : legalize cc n with
      | none => exact absurd ((C20_total cc n).1.1 hl) hn
      | some l =>
        obtain ⟨h0, hw, -⟩ := legalize_word hcc hl
        simp only [wantedNodeName, hl]
        refine ⟨_, rfl, ?_, ?_⟩
        · split
          · rename_i he; rw [he]; decide
          · exact isName_of_word hcc h0 hw
        · intro c hc
          split at hc
          · rw [List.mem_append, List.mem_singleton] at hc
            rcases hc with hc | rfl
            · exact .inl (hw c hc)
            · exact .inl (hcc.digit_word _ (hcc.ascii '1' (by decide)))
          · exact .inl (hw c hc)
  obtain ⟨want, hw1, hw2, hw3⟩ := hwant
  have hsuffix : ∀ k, IsName (want ++ dec k) := by
    intro k
    have hd := isName_of_word hcc (dec_ne_nil k) (hdig k)
    refine ⟨by simp [hw2.1], ?_, ?_⟩
    · rw [List.mem_append, not_or]; exact ⟨hw2.2.1, hd.2.1⟩
    · rw [List.mem_append, not_or]; exact ⟨hw2.2.2, hd.2.2⟩
  have hjoin : ∀ t, IsName t → joinNodePath (render ps) t = render (ps ++ [t]) := fun t ht =>
    (C09_parent_name_join ps t (names_append.2 ⟨hps, names_cons.2 ⟨ht, names_nil⟩⟩)).2.2.1
  have hN : ∀ t, IsName t → Names (ps ++ [t]) := fun t ht =>
    names_append.2 ⟨hps, names_cons.2 ⟨ht, names_nil⟩⟩
  have hinj : ∀ i j, joinNodePath (render ps) (want ++ dec i) = joinNodePath (render ps) (want ++ dec j)
      → i = j := by
    intro i j h
    rw [hjoin _ (hsuffix i), hjoin _ (hsuffix j)] at h
    have := render_inj (hN _ (hsuffix i)) (hN _ (hsuffix j)) h
    simp at this
    exact dec_inj this
  have hjw := hjoin want hw2
  unfold uniqueNodeName
  rw [hw1]
  simp only
  rcases search_total (fun t => decide (joinNodePath (render ps) t ∈ paths))
    (joinNodePath (render ps)) paths (by simp) want want hinj 1 fuel hf with
    ⟨h1, h2⟩ | ⟨h1, k, h2, h3, h4, h5⟩
  · rw [if_neg (by simpa using h1)]
    rw [hjw] at h1
    exact ⟨want, want, rfl, rfl, hw2, hw3, h1, fun _ => rfl, fun h => absurd h h1⟩
  · rw [if_pos (by simpa using h1), h5]
    rw [hjw] at h1
    refine ⟨want, want ++ dec k, rfl, rfl, hsuffix k, ?_, by rw [← hjoin _ (hsuffix k)]; exact h3,
      fun h => absurd h1 h, fun _ => ⟨k, h2, rfl, ?_⟩⟩
    · intro c hc
      rw [List.mem_append] at hc
      rcases hc with hc | hc
      · exact hw3 c hc
      · exact .inl (hdig k c hc)
    · intro j hj1 hj2
      rw [← hjoin _ (hsuffix j)]; exact h4 j (by omega) hj2

/-- C18: what is asked for is what the search starts from, except for the reserved name. -/
theorem C18_wanted (cc : CharClass) (c : Char) (cs : Str)
    (hw : ∀ x ∈ c :: cs, cc.isWord x = true) (hd : cc.isDigit c = false) :
    wantedNodeName cc (some (c :: cs)) =
      some (if c :: cs = "__name__".toList then "__name__1".toList else c :: cs) := by
  simp only [wantedNodeName, C20_legal_unchanged cc c cs hw hd]
  split
  · rename_i h; rw [h]; rfl
  · rfl

/-- C18: the empty name raises. -/
theorem C18_empty_name_raises (cc : CharClass) (paths : List Str) (p : Str) (fuel : Nat) :
    uniqueNodeName cc paths p (some []) fuel = .indexError := rfl

example : uniqueNodeName asciiClass ["/a".toList, "/a/n".toList, "/a/n2".toList, "/n3".toList]
    "/a".toList (some "n".toList) 6 = .ok "n3".toList := by decide +kernel

example : uniqueNodeName asciiClass [] "/".toList (some "__name__".toList) 2 = .ok "__name__1".toList := by
  decide +kernel

/-! ## C19 -/

theorem mem_localAttrNames (prot : List Str) (attrs : List (List Str)) (a : Str) :
    a ∈ localAttrNames prot attrs ↔
      (∃ keys ∈ attrs, a ∈ keys) ∧ a ∉ prot ∧ endsWith a "__nxt".toList = false := by
  unfold localAttrNames
  let P : Str → Prop := fun a => a ∉ prot ∧ endsWith a "__nxt".toList = false
  have inner : ∀ (keys acc : List Str), a ∈ (keys.foldl (fun acc a =>
      if a ∈ acc then acc else if a ∈ prot then acc
      else if endsWith a "__nxt".toList then acc else acc ++ [a]) acc) ↔ a ∈ acc ∨ (a ∈ keys ∧ P a) := by
    intro keys
    induction keys with
    | nil => intro acc; simp
    | cons k ks ih =>
      intro acc
      rw [List.foldl_cons, ih]
      by_cases h1 : k ∈ acc
      · rw [if_pos h1, List.mem_cons]
        constructor
        · rintro (h | h)
          · exact .inl h
          · exact .inr ⟨.inr h.1, h.2⟩
        · rintro (h | ⟨rfl | h, hp⟩)
          · exact .inl h
          · exact .inl h1
          · exact .inr ⟨h, hp⟩
      · rw [if_neg h1]
        by_cases h2 : k ∈ prot
        · rw [if_pos h2, List.mem_cons]
          constructor
          · rintro (h | h)
            · exact .inl h
            · exact .inr ⟨.inr h.1, h.2⟩
          · rintro (h | ⟨rfl | h, hp⟩)
            · exact .inl h
            · exact absurd h2 hp.1
            · exact .inr ⟨h, hp⟩
        · rw [if_neg h2]
          by_cases h3 : endsWith k "__nxt".toList = true
          · rw [if_pos h3, List.mem_cons]
            constructor
            · rintro (h | h)
              · exact .inl h
              · exact .inr ⟨.inr h.1, h.2⟩
            · rintro (h | ⟨rfl | h, hp⟩)
              · exact .inl h
              · have := hp.2; rw [h3] at this; cases this
              · exact .inr ⟨h, hp⟩
          · rw [if_neg h3, List.mem_append, List.mem_singleton, List.mem_cons]
            constructor
            · rintro ((h | rfl) | h)
              · exact .inl h
              · exact .inr ⟨.inl rfl, h2, by simpa using h3⟩
              · exact .inr ⟨.inr h.1, h.2⟩
            · rintro (h | ⟨rfl | h, hp⟩)
              · exact .inl (.inl h)
              · exact .inl (.inr rfl)
              · exact .inr ⟨h, hp⟩
  have outer : ∀ (attrs : List (List Str)) (acc : List Str), a ∈ (attrs.foldl (fun acc keys => keys.foldl (fun acc a =>
      if a ∈ acc then acc else if a ∈ prot then acc
      else if endsWith a "__nxt".toList then acc else acc ++ [a]) acc) acc) ↔
      a ∈ acc ∨ ((∃ keys ∈ attrs, a ∈ keys) ∧ P a) := by
    intro attrs
    induction attrs with
    | nil => intro acc; simp
    | cons k ks ih =>
      intro acc
      rw [List.foldl_cons, ih, inner]
      simp only [List.mem_cons, exists_eq_or_imp]
      constructor
      · rintro ((h | h) | h)
        · exact .inl h
        · exact .inr ⟨.inl h.1, h.2⟩
        · exact .inr ⟨.inr h.1, h.2⟩
      · rintro (h | ⟨h | h, hp⟩)
        · exact .inl (.inl h)
        · exact .inl (.inr ⟨h, hp⟩)
        · exact .inr ⟨h, hp⟩
  rw [outer]; simp [P]

/-- C19: for every request but the empty text the search stops; the result is no protected name and
no user attribute of the node in any active layer; it is the (legalised) request if that is free, else
its digit-stripped stem with a number above the one it ended in. -/
theorem C19_unique_attr_name (cc : CharClass) (prot : List Str) (attrs : List (List Str))
    (n l : Str) (hl : legalize cc n = some l) (fuel : Nat)
    (hf : (localAttrNames prot attrs ++ prot).length + 2 ≤ fuel) :
    ∃ r, uniqueAttrName cc prot attrs (some n) fuel = .ok r ∧ r ∉ prot ∧
      (∀ keys ∈ attrs, r ∈ keys → endsWith r "__nxt".toList = true) ∧
      (r = l ∨ ∃ stem digits k, l = stem ++ digits ∧ (∀ c ∈ digits, c ∈ "0123456789".toList) ∧
        (∀ c, stem.getLast? = some c → c ∉ "0123456789".toList) ∧ r = stem ++ dec k ∧ (digits ≠ [] → decVal digits < k) ∧ 2 ≤ k + (if digits = [] then 0 else 1)) ∧
      (l ∉ prot → (∀ keys ∈ attrs, l ∉ keys) → r = l) := by
  unfold uniqueAttrName
  simp only [hl]
  obtain ⟨t, ht, htd, hts⟩ := rstripDigits_split l
  have htd : ∀ c ∈ t, c ∈ "0123456789".toList := fun c hc => List.contains_iff_mem.1 (htd c hc)
  have hts : ∀ c, (rstripDigits l).getLast? = some c → c ∉ "0123456789".toList := fun c hc hm => hts (by
    rw [hc]; exact congrArg some (List.contains_iff_mem.2 hm))
  have hdrop : l.drop (rstripDigits l).length = t := by
    conv => lhs; arg 2; rw [ht]
    simp
  rw [hdrop]
  have free : ∀ r, r ∉ localAttrNames prot attrs ++ prot →
      r ∉ prot ∧ ∀ keys ∈ attrs, r ∈ keys → endsWith r "__nxt".toList = true := by
    intro r hr
    rw [List.mem_append, not_or, mem_localAttrNames] at hr
    refine ⟨hr.2, ?_⟩
    intro keys hk hrk
    cases he : endsWith r "__nxt".toList with
    | true => rfl
    | false => exact absurd ⟨⟨keys, hk, hrk⟩, hr.2, he⟩ hr.1
  rcases search_total (fun t => decide (t ∈ localAttrNames prot attrs ++ prot)) id
    (localAttrNames prot attrs ++ prot) (fun t => by simp only [decide_eq_true_eq, id]) (rstripDigits l) l
    (by intro i j h; simp at h; exact dec_inj h) (if t ≠ [] then decVal t else 1) fuel hf with
    ⟨h1, h2⟩ | ⟨h1, k, h2, h3, -, h5⟩
  · simp only [id] at h1 h2
    rw [h2]
    exact ⟨l, rfl, (free l h1).1, (free l h1).2, .inl rfl, fun _ _ => rfl⟩
  · simp only [id] at h1 h3 h5
    rw [h5]
    refine ⟨_, rfl, (free _ h3).1, (free _ h3).2, .inr ⟨rstripDigits l, t, k, ht, htd, hts, rfl, ?_, ?_⟩, ?_⟩
    · intro h; rwa [if_pos h] at h2
    · by_cases h : t = []
      · subst h; simp at h2; simp; omega
      · rw [if_pos h] at h2; simp [h]; omega
    · intro hp hk
      rw [List.mem_append, mem_localAttrNames] at h1
      rcases h1 with ⟨⟨keys, hk1, hk2⟩, -⟩ | h1
      · exact absurd hk2 (hk keys hk1)
      · exact absurd h1 hp

/-- C19: an omitted name asks for `attr`. -/
theorem C19_default_name (cc : CharClass) (prot : List Str) (attrs : List (List Str)) (fuel : Nat)
    (h : ∀ c ∈ "attr".toList, cc.isWord c = true) (hd : cc.isDigit 'a' = false) :
    uniqueAttrName cc prot attrs none fuel = uniqueAttrName cc prot attrs (some "attr".toList) fuel := by
  have : legalize cc "attr".toList = some "attr".toList :=
    C20_legal_unchanged cc 'a' "ttr".toList h hd
  simp only [uniqueAttrName, this]

/-- C19 fails for names with the meta suffix: they are not counted as existing attributes, so the
name returned can be one the node already has. -/
theorem C19_meta_suffix_violation :
    uniqueAttrName asciiClass ["_name".toList] [["x__nxt".toList]] (some "x__nxt".toList) 5
      = .ok "x__nxt".toList := by decide +kernel

example : uniqueAttrName asciiClass ["_name".toList] [["a7".toList, "b".toList], ["a8".toList]]
    (some "a7".toList) 6 = .ok "a9".toList := by decide +kernel

/-! ## C21 -/

theorem unusedGraphName_eq_search (loaded : List Str) (name : Str) (fuel num : Nat) (cand : Str)
    (hne : cand ≠ []) :
    unusedGraphName loaded name fuel num cand
      = search (fun t => decide (t ∈ loaded)) name fuel num cand := by
  induction fuel generalizing num cand with
  | zero => rfl
  | succ fuel ih =>
    rw [unusedGraphName, search]
    by_cases h : cand ∈ loaded
    · rw [if_pos h, if_pos (by simpa using h)]
      exact ih _ _ (by simp [dec_ne_nil])
    · rw [if_neg h, if_neg hne, if_neg (by simpa using h)]

/-- C21 (partial: the request is not the empty text, or that name is taken): the search stops with a
name no open graph has, the request itself when it is free, else the request with the least number from 1 on. -/
theorem C21_unused_graph_name_partial (loaded : List Str) (name : Str) (fuel : Nat)
    (hne : name ≠ [] ∨ [] ∈ loaded) (hf : loaded.length + 3 ≤ fuel) :
    ∃ r, getUnusedGraphName loaded name fuel = some r ∧ r ∉ loaded ∧ (name ∉ loaded → r = name) ∧
      (name ∈ loaded → ∃ k, 1 ≤ k ∧ r = name ++ dec k ∧
        ∀ j, 1 ≤ j → j < k → name ++ dec j ∈ loaded) := by
  unfold getUnusedGraphName
  have hinj : ∀ i j, (id : Str → Str) (name ++ dec i) = id (name ++ dec j) → i = j := by
    intro i j h; simp at h; exact dec_inj h
  by_cases hn : name = []
  · subst hn
    have hmem : ([] : Str) ∈ loaded := by
      rcases hne with h | h
      · exact absurd rfl h
      · exact h
    cases fuel with
    | zero => omega
    | succ fuel =>
      rw [unusedGraphName, if_pos hmem, unusedGraphName_eq_search _ _ _ _ _ (by simp [dec_ne_nil])]
      rcases search_total (fun t => decide (t ∈ loaded)) id loaded (by simp) [] ([] ++ dec (0 + 1)) hinj (0 + 1) fuel (by omega) with
        ⟨h1, h2⟩ | ⟨h1, k, h2, h3, h4, h5⟩
      · simp only [id] at h1 h2
        exact ⟨_, h2, h1, fun h => absurd hmem h, fun _ => ⟨1, by omega, rfl, by intros; omega⟩⟩
      · simp only [id] at h1 h3 h4 h5
        refine ⟨_, h5, h3, fun h => absurd hmem h, fun _ => ⟨k, by omega, rfl, ?_⟩⟩
        intro j hj1 hj2
        by_cases h : j = 1
        · subst h; exact h1
        · exact h4 j (by omega) hj2
  · rw [unusedGraphName_eq_search _ _ _ _ _ hn]
    rcases search_total (fun t => decide (t ∈ loaded)) id loaded (by simp) name name hinj 0 fuel (by omega) with
      ⟨h1, h2⟩ | ⟨h1, k, h2, h3, h4, h5⟩
    · simp only [id] at h1 h2
      exact ⟨name, h2, h1, fun _ => rfl, fun h => absurd h h1⟩
    · simp only [id] at h1 h3 h4 h5
      exact ⟨_, h5, h3, fun h => absurd h1 h, fun _ => ⟨k, h2, rfl, fun j hj1 hj2 => h4 j hj1 hj2⟩⟩

/-- C21 fails for the empty name when it is free: the loop never ends. -/
theorem C21_empty_name_diverges (loaded : List Str) (h : [] ∉ loaded) (fuel : Nat) :
    getUnusedGraphName loaded [] fuel = none := by
  unfold getUnusedGraphName
  generalize 0 = num
  induction fuel with
  | zero => rfl
  | succ fuel ih => rw [unusedGraphName, if_neg h, if_pos rfl, ih]

example : getUnusedGraphName ["g".toList, "g1".toList, "x".toList] "g".toList 6 = some "g2".toList := by
  decide +kernel

end Nxt.Props
