import Verif.Lemmas.JsonGrammar
/-!
# C159: which texts are graph files
-/
namespace Nxt.Props
open Spec JsonText

/-- C159: the reader reads exactly the texts of the grammar, each as the value it is written for. -/
theorem C159_exact (s : Str) (v : Val) : loadText s = some v ↔ DocText v s := by
  constructor
  · intro h
    unfold loadText at h
    obtain ⟨b, hb, hs⟩ := of_skip s
    cases h1 : readVal (s.length + 1) (skip s) with
    | none => rw [h1] at h; cases h
    | some p =>
      obtain ⟨w, r⟩ := p
      rw [h1] at h
      simp only at h
      obtain ⟨t, ht, hv⟩ := (of_read _).1 _ _ _ h1
      obtain ⟨b', hb', hr⟩ := of_skip r
      split at h
      · rename_i he
        obtain rfl := Option.some.inj h
        rw [List.isEmpty_iff.mp he, List.append_nil] at hr
        exact ⟨b, t, b', hb, hv, hb', by rw [hs, ht, hr]; simp⟩
      · cases h
  · rintro ⟨b, t, b', hb, hv, hb', rfl⟩
    obtain ⟨c, cs, rfl, ho⟩ := valText_head hv
    have h1 : skip (b ++ c :: cs ++ b') = c :: cs ++ b' := by
      rw [List.append_assoc, List.cons_append, skip_blanks ho.1 _ hb]
    have h2 := readVal_of hv ((b ++ c :: cs ++ b').length + 1) b' (by simp only [List.length_append]; omega) (by
      have := stops_blanks hb' (r := []) (fun _ h => nomatch h)
      rwa [List.append_nil] at this)
    unfold loadText
    rw [h1, h2]
    simp only
    rw [skip_all _ hb']
    rfl

/-- C159: a text has one meaning only. -/
theorem C159_one_meaning {s : Str} {v w : Val} (hv : DocText v s) (hw : DocText w s) : v = w := by
  have h := (C159_exact s v).mpr hv
  rw [(C159_exact s w).mpr hw] at h
  exact (Option.some.inj h).symm

/-- C159: what is written keeps to the grammar, so that other programs can read it. -/
theorem C159_written (others : Nat → Str) (level : Nat) {v : Val} (hv : JsonVal v) :
    DocText v (dump others level v) :=
  (C159_exact _ _).mp (by rw [loadText_dump others level (textVal_json v hv), written_json v hv])

/-- C159: a file is a graph file if its text is written for a dict; every other file is refused. -/
theorem C159_files (text : Str) :
    (∀ d, contentOf text = .json d ↔ DocText (.dict d) text) ∧
    (contentOf text = .cut ↔ ¬∃ d, DocText (.dict d) text) := by
  simp only [← C159_exact]
  unfold contentOf
  cases h : loadText text with
  | none => simp
  | some v => cases v <;> simp

/-- C159: blanks around the items do not matter: texts of lists which differ in them only are read
alike. -/
theorem C159_layout (l l' : List Piece) (hne : l ≠ []) (hb : ∀ p ∈ l, Blanks p.before ∧ Blanks p.after)
    (hv : ∀ p ∈ l, ValText p.val p.text) (hb' : ∀ p ∈ l', Blanks p.before ∧ Blanks p.after)
    (hs : l.map (fun p => (p.val, p.text)) = l'.map (fun p => (p.val, p.text))) :
    loadText ('[' :: commaed l ++ [']']) = loadText ('[' :: commaed l' ++ [']']) := by
  have hv' : ∀ p ∈ l', ValText p.val p.text := by
    intro p hp
    have : (p.val, p.text) ∈ l.map (fun p => (p.val, p.text)) := by rw [hs]; exact List.mem_map.mpr ⟨p, hp, rfl⟩
    obtain ⟨q, hq, he⟩ := List.mem_map.mp this
    obtain ⟨h1, h2⟩ := Prod.mk.inj he
    rw [← h1, ← h2]
    exact hv q hq
  have hne' : l' ≠ [] := by rintro rfl; exact hne (List.map_eq_nil_iff.mp hs)
  have hm : l.map (·.val) = l'.map (·.val) := by
    have := congrArg (List.map Prod.fst) hs
    rwa [List.map_map, List.map_map] at this
  have h1 := (C159_exact ('[' :: commaed l ++ [']']) _).mpr
    ⟨[], _, [], blanks_nil, ValText.items l hne hb hv, blanks_nil, by simp⟩
  have h2 := (C159_exact ('[' :: commaed l' ++ [']']) _).mpr
    ⟨[], _, [], blanks_nil, ValText.items l' hne' hb' hv', blanks_nil, by simp⟩
  rw [h1, h2, hm]

/-- Written otherwise than by the writer: blanks elsewhere, an escaped slash, a zero with a sign, a letter by its number in
capitals. -/
example : DocText (.dict [("a/é".toList, .list [.num (-(0 : Nat))])]) " {\"a\\/\\u00E9\" :[-0] }\n".toList := by
  have hn : ValText (.num (-(0 : Nat))) "-0".toList := .num _ _ (.neg 0 _ .zero)
  have hl : ValText (.list [.num (-(0 : Nat))]) "[-0]".toList :=
    .items [⟨[], .num (-(0 : Nat)), "-0".toList, []⟩] (by simp) (by simp [Blanks]) (by rw [List.forall_mem_cons]; exact ⟨hn, by simp⟩)
  have hx : FourHex 233 "00E9".toList := .mk '0' '0' 'E' '9' 0 0 14 9 (.inl rfl) (.inl rfl) (.inr rfl) (.inl rfl)
  have hk : StrText "a/é".toList "a\\/\\u00E9".toList :=
    .cons 'a' ['a'] _ _ (.plain 'a' (by decide) (by decide) (by decide))
      (.cons '/' ['\\', '/'] _ _ (.short '/' '/' (by decide)) (.cons 'é' _ _ [] (.unit 233 _ hx (by decide)) .nil))
  exact ⟨[' '], _, ['\n'], by simp [Blanks],
    .entries [⟨[], "a/é".toList, "a\\/\\u00E9".toList, [' '], ⟨[], .list [.num (-(0 : Nat))], "[-0]".toList, [' ']⟩⟩] (by simp) (by simp [Blanks])
      (by rw [List.forall_mem_cons]; exact ⟨hk, by simp⟩) (by rw [List.forall_mem_cons]; exact ⟨hl, by simp⟩),
    by simp [Blanks], rfl⟩

/-- A comma after the last item, a zero before a number, a line end inside a text and text after the end. -/
example : (∀ v, ¬DocText v "[1,]".toList) ∧ (∀ v, ¬DocText v "{\"a\": 01}".toList) ∧ (∀ v, ¬DocText v "\"a\nb\"".toList) ∧
    ∀ v, ¬DocText v "{} {}".toList := by
  have key : ∀ s : Str, (loadText s).isNone = true → ∀ v, ¬DocText v s := by
    intro s hs v h
    rw [(C159_exact s v).mpr h] at hs
    cases hs
  exact ⟨key _ (by decide +kernel), key _ (by decide +kernel), key _ (by decide +kernel), key _ (by decide +kernel)⟩

/-- The same items in one line and in two. -/
example : loadText "[1, null]".toList = loadText "[\n 1\n ,null]".toList :=
  C159_layout [⟨[], .num 1, ['1'], []⟩, ⟨[' '], .none, "null".toList, []⟩]
    [⟨"\n ".toList, .num 1, ['1'], "\n ".toList⟩, ⟨[], .none, "null".toList, []⟩] (by simp)
    (by simp [Blanks]) (by
      rw [List.forall_mem_cons, List.forall_mem_cons]
      exact ⟨.num 1 _ (.pos 1 _ (.more '1' [] (by decide) (by decide))), .null, by simp⟩)
    (by simp [Blanks]) rfl

end Nxt.Props
