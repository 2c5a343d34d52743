import Verif.Lemmas.Resolve
import Verif.Lemmas.FilePaths
/-!
# Replacing tokens one after the other
-/
namespace Nxt.Resolve
open Py Spec Tokens FilePaths

/-- Nothing is replaced in a piece where no occurrence starts. -/
theorem replaceGo_none {old new w rest : Str} (h : ∀ a b, w = a ++ b → b ≠ [] → ¬ ∃ u, b ++ rest = old ++ u) :
    replaceGo old new 0 (w ++ rest) = w ++ replaceGo old new 0 rest := by
  induction w with
  | nil => rfl
  | cons c w ih =>
    rw [List.cons_append, replaceGo_miss, ih]
    · rfl
    · intro a b hab hb
      exact h (c :: a) b (by rw [hab]; rfl) hb
    · exact h [] (c :: w) rfl (by simp)

theorem getLast?_append_some {w b : Str} (hb : b ≠ []) : (w ++ b).getLast? = b.getLast? := by
  rw [List.getLast?_append, List.getLast?_eq_some_getLast hb]
  rfl

/-- No occurrence of a token starts in a piece without opener that does not straddle. -/
theorem replaceGo_inert {old new w rest : Str} (ho : ∃ r, old = '$' :: '{' :: r) (hw : opens w = 0)
    (hl : w.getLast? ≠ some '$') : replaceGo old new 0 (w ++ rest) = w ++ replaceGo old new 0 rest := by
  obtain ⟨r, rfl⟩ := ho
  apply replaceGo_none
  rintro a b rfl hb ⟨u, hu⟩
  cases b with
  | nil => exact hb rfl
  | cons c b =>
    simp only [List.cons_append, List.cons.injEq] at hu
    obtain ⟨rfl, hu⟩ := hu
    cases b with
    | nil => apply hl; simp
    | cons d b =>
      simp only [List.cons_append, List.cons.injEq] at hu
      obtain ⟨rfl, _⟩ := hu
      rw [opens_eq_zero_iff] at hw
      exact hw a b (by simp [PREFIX])

theorem token_last {t : Str} (h : IsToken t) : ∃ r, t = r ++ ['}'] := by
  obtain ⟨⟨r, rfl⟩, hbal, hpre⟩ := h
  rcases List.eq_nil_or_concat ('$' :: '{' :: r) with h | ⟨l, x, hx⟩
  · cases h
  · rw [List.concat_eq_append] at hx
    rw [hx]
    by_cases hxc : x = '}'
    · exact ⟨l, by rw [hxc]⟩
    · exfalso
      by_cases hl : 2 ≤ l.length
      · have h1 := hpre l [x] hx (by simp) hl
        rw [hx, closes_append] at hbal
        have h2 := opens_append_ge l [x]
        have h3 : closes [x] = 0 := by simp [closes, hxc]
        omega
      · have hlen := congrArg List.length hx
        simp only [List.length_cons, List.length_append, List.length_nil] at hlen
        have hr : r = [] := List.eq_nil_of_length_eq_zero (by omega)
        subst hr
        revert hbal
        decide

/-- Of two tokens starting at the same place one cannot be longer. -/
theorem token_front {t t' x y : Str} (h : IsToken t) (h' : IsToken t') (e : t ++ x = t' ++ y) : t = t' := by
  have two : ∀ {s : Str}, IsToken s → 2 ≤ s.length := by
    rintro s ⟨⟨r, rfl⟩, _⟩
    simp
  rcases List.append_eq_append_iff.1 e with ⟨d, rfl, _⟩ | ⟨d, rfl, _⟩
  · cases d with
    | nil => simp
    | cons c d =>
      have := h'.2.2 t (c :: d) rfl (by simp) (two h)
      have := h.2.1
      omega
  · cases d with
    | nil => simp
    | cons c d =>
      have := h.2.2 t' (c :: d) rfl (by simp) (two h')
      have := h'.2.1
      omega

/-- A token starting inside another token, not at its front, ends inside it. -/
theorem token_inside {t t' a b rest u : Str} (h : IsToken t) (h' : IsToken t') (e : t' = a ++ b) (ha : a ≠ [])
    (hb : b ≠ []) (hu : b ++ rest = t ++ u) : ∃ v, b = t ++ v := by
  rcases List.append_eq_append_iff.1 hu with ⟨d, hd, _⟩ | ⟨d, hd, _⟩
  · -- `t = b ++ d`
    cases d with
    | nil => exact ⟨[], by simpa using hd.symm⟩
    | cons c d =>
      exfalso
      obtain ⟨r, hr⟩ := h.1
      -- `b` starts with `$`
      obtain ⟨b', rfl⟩ : ∃ b', b = '$' :: b' := by
        cases b with
        | nil => exact absurd rfl hb
        | cons x b' =>
          rw [hr] at hd
          simp only [List.cons_append, List.cons.injEq] at hd
          exact ⟨b', by rw [← hd.1]⟩
      -- `b` ends with `}`, hence it is longer than one character
      obtain ⟨r', hr'⟩ := token_last h'
      have hb2 : 2 ≤ ('$' :: b').length := by
        cases b' with
        | nil =>
          rw [e] at hr'
          have := congrArg List.getLast? hr'
          rw [getLast?_append_some (by simp), getLast?_append_some (by simp)] at this
          simp at this
        | cons => simp
      -- `a` is longer than one character
      obtain ⟨r'', hr''⟩ := h'.1
      have ha2 : 2 ≤ a.length := by
        cases a with
        | nil => exact absurd rfl ha
        | cons x a =>
          cases a with
          | nil =>
            rw [hr''] at e
            simp at e
          | cons => simp
      have h1 := h'.2.2 a ('$' :: b') e (by simp) ha2
      have h2 := h.2.2 ('$' :: b') (c :: d) hd (by simp) hb2
      have h3 := h'.2.1
      rw [e, closes_append, opens_append (by rintro ⟨_, hh⟩; simp at hh)] at h3
      omega
  · exact ⟨d, hd⟩

/-- Gaps and tokens put together, each token rendered by `f`. -/
def mixTok (f : Str → Str) (segs : List (Str × Str)) (tail : Str) : Str :=
  (segs.map fun p => p.1 ++ f p.2).flatten ++ tail

theorem mixTok_cons (f : Str → Str) (g t : Str) (segs : List (Str × Str)) (tail : Str) :
    mixTok f ((g, t) :: segs) tail = g ++ (f t ++ mixTok f segs tail) := by
  simp [mixTok]

theorem replace_mixTok {t s : Str} (ht : IsToken t) {f : Str → Str} (segs : List (Str × Str)) (tail : Str)
    (hgap : ∀ p ∈ segs, opens p.1 = 0 ∧ p.1.getLast? ≠ some '$') (htail : opens tail = 0)
    (htok : ∀ p ∈ segs, IsToken p.2) (hf : ∀ p ∈ segs, f p.2 = p.2 ∨ (Inert (f p.2) ∧ (p.2 = t → f p.2 = s)))
    (hnest : ∀ p ∈ segs, ∀ a b, p.2 = a ++ t ++ b → a = []) :
    replace (mixTok f segs tail) t s = mixTok (fun x => if x = t then s else f x) segs tail := by
  unfold replace
  induction segs with
  | nil =>
    show replaceGo t s 0 ([] ++ tail) = [] ++ tail
    simp only [List.nil_append]
    have := replaceGo_none (old := t) (new := s) (w := tail) (rest := []) (by
      rintro a b rfl hb ⟨u, hu⟩
      obtain ⟨r, rfl⟩ := ht.1
      rw [opens_eq_zero_iff] at htail
      apply htail a (r ++ u)
      rw [List.append_nil] at hu
      rw [hu]
      simp [PREFIX])
    rw [List.append_nil] at this
    rw [this]
    simp [replaceGo]
  | cons p segs ih =>
    obtain ⟨gap, t'⟩ := p
    have hg := hgap _ (List.mem_cons_self ..)
    have ht' : IsToken t' := htok _ (List.mem_cons_self ..)
    have ih' := ih (fun p hp => hgap p (List.mem_cons_of_mem _ hp)) (fun p hp => htok p (List.mem_cons_of_mem _ hp))
      (fun p hp => hf p (List.mem_cons_of_mem _ hp)) (fun p hp => hnest p (List.mem_cons_of_mem _ hp))
    rw [mixTok_cons, mixTok_cons, replaceGo_inert ht.1 hg.1 hg.2]
    congr 1
    have hcase := hf _ (List.mem_cons_self ..)
    simp only at hcase hg
    rcases hcase with h | ⟨h, hs⟩
    · rw [h]
      by_cases e : t' = t
      · subst e
        obtain ⟨r, rfl⟩ := ht.1
        rw [replaceGo_match, ih', if_pos rfl]
      · rw [if_neg e, replaceGo_none, ih']
        rintro a b hab hb ⟨u, hu⟩
        by_cases ha : a = []
        · subst ha
          simp only [List.nil_append] at hab
          rw [← hab] at hu
          exact e (token_front ht' ht hu)
        · obtain ⟨v, hv⟩ := token_inside ht ht' hab ha hb hu
          exact ha (hnest (gap, t') (List.mem_cons_self ..) a v (by rw [hab, hv, List.append_assoc]))
    · rw [replaceGo_inert ht.1 h.1 h.2, ih']
      congr 1
      by_cases e : t' = t
      · rw [if_pos e, hs e]
      · rw [if_neg e]

/-- Replacing the tokens of a list one after the other. -/
theorem foldl_mixTok {m : Str → Str} (segs : List (Str × Str)) (tail : Str)
    (hgap : ∀ p ∈ segs, opens p.1 = 0 ∧ p.1.getLast? ≠ some '$') (htail : opens tail = 0)
    (htok : ∀ p ∈ segs, IsToken p.2) (hm : ∀ p ∈ segs, Inert (m p.2))
    (ts : List Str) (hts : ∀ t ∈ ts, ∃ p ∈ segs, p.2 = t)
    (hnest : ∀ t ∈ ts, ∀ p ∈ segs, ∀ a b, p.2 = a ++ t ++ b → a = []) (done : List Str) :
    ts.foldl (fun s t => replace s t (m t)) (mixTok (fun x => if x ∈ done then m x else x) segs tail) =
      mixTok (fun x => if x ∈ done ++ ts then m x else x) segs tail := by
  induction ts generalizing done with
  | nil => simp
  | cons t ts ih =>
    have htt : IsToken t := by
      obtain ⟨p, hp, rfl⟩ := hts t (List.mem_cons_self ..)
      exact htok p hp
    rw [List.foldl_cons, replace_mixTok htt segs tail hgap htail htok]
    · have e : (fun x => if x = t then m t else if x ∈ done then m x else x) =
          (fun x => if x ∈ done ++ [t] then m x else x) := by
        funext x
        by_cases hx : x = t
        · simp [hx]
        · by_cases hd : x ∈ done <;> simp [hx, hd]
      rw [e, ih (fun t ht => hts t (List.mem_cons_of_mem _ ht)) (fun t ht => hnest t (List.mem_cons_of_mem _ ht))]
      simp [List.append_assoc]
    · intro p hp
      by_cases hd : p.2 ∈ done
      · right
        simp only [if_pos hd]
        exact ⟨hm p hp, fun h => by rw [h]⟩
      · left
        simp only [if_neg hd]
    · exact hnest t (List.mem_cons_self ..)

/-- A closed text as gaps and tokens. -/
theorem parse_segs {text : Str} {ts : List Str} {ok : Bool} (h : Parse text ts ok) (hok : ok = true) :
    ∃ segs tail, text = mixTok id segs tail ∧ ts = segs.map (·.2) ∧ opens tail = 0 ∧
      ∀ p ∈ segs, opens p.1 = 0 ∧ IsToken p.2 := by
  induction h with
  | @done g hg => exact ⟨[], g, rfl, rfl, hg, by simp⟩
  | unclosed => cases hok
  | @tok gap t rest ts ok hg ht _ ih =>
    obtain ⟨segs, tail, h1, h2, h3, h4⟩ := ih hok
    refine ⟨(gap, t) :: segs, tail, ?_, by simp [h2], h3, ?_⟩
    · rw [mixTok_cons, ← h1]
      simp
    · intro p hp
      rcases List.mem_cons.1 hp with rfl | hp
      · exact ⟨hg, ht⟩
      · exact h4 p hp

theorem renders_segs {m : Str → Str} (segs : List (Str × Str)) {tail : Str} (htail : opens tail = 0)
    (h : ∀ p ∈ segs, opens p.1 = 0 ∧ IsToken p.2) : Renders m (mixTok id segs tail) (mixTok m segs tail) := by
  induction segs with
  | nil => exact .done htail
  | cons p segs ih =>
    obtain ⟨gap, t⟩ := p
    rw [mixTok_cons, mixTok_cons, ← List.append_assoc, ← List.append_assoc]
    have h0 := h _ (List.mem_cons_self ..)
    exact .tok h0.1 h0.2 (ih fun p hp => h p (List.mem_cons_of_mem _ hp))

theorem mixTok_congr {f f' : Str → Str} (segs : List (Str × Str)) (tail : Str) (h : ∀ p ∈ segs, f p.2 = f' p.2) :
    mixTok f segs tail = mixTok f' segs tail := by
  unfold mixTok
  congr 2
  exact List.map_congr_left fun p hp => by rw [h p hp]

/-- A gap in front of a token ends with `$` only where the text has `$${`. -/
theorem gaps_ok {segs : List (Str × Str)} {tail : Str} (h : ∀ p ∈ segs, IsToken p.2)
    (hd : ∀ a b, mixTok id segs tail ≠ a ++ ['$', '$', '{'] ++ b) : ∀ p ∈ segs, p.1.getLast? ≠ some '$' := by
  intro p hp hl
  obtain ⟨l1, l2, rfl⟩ := List.append_of_mem hp
  obtain ⟨r, hr⟩ := (h p hp).1
  obtain ⟨g', hg'⟩ : ∃ g', p.1 = g' ++ ['$'] := by
    rcases List.eq_nil_or_concat p.1 with e | ⟨l, x, e⟩
    · rw [e] at hl; simp at hl
    · rw [List.concat_eq_append] at e
      rw [e, getLast?_append_some (by simp)] at hl
      simp only [List.getLast?_singleton, Option.some.injEq] at hl
      exact ⟨l, by rw [e, hl]⟩
  apply hd ((l1.map fun p => p.1 ++ id p.2).flatten ++ g') (r ++ (l2.map fun p => p.1 ++ id p.2).flatten ++ tail)
  simp only [mixTok, List.map_append, List.map_cons, List.flatten_append, List.flatten_cons, hg', hr, id]
  simp

end Nxt.Resolve
