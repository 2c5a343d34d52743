import Verif.Spec.LiveChain
import Verif.Props.Live
import Verif.Props.Fallbacks
/-!
# Properties of chains of references while nodes are run
-/
namespace Nxt.Props
open Dict NodeData Mro Rt Flow Spec Live

namespace Living

variable {x : Around} {builtins : List Str} {nodes : Dict Str Nat}
  (hinj : ∀ p q c, (p, c) ∈ nodes → (q, c) ∈ nodes → p = q) (hne : ∀ p c, (p, c) ∈ nodes → p ≠ [])
  {g : Classes} {now : Nat → Str → Option Val} (hnow : ∀ d a, FlowName builtins a → g.attr? d a = now d a)

include hinj in
theorem names_attr {c : Nat} {r q a : Str} (h : NamesAttr nodes c r q a) : RefNames (graphOf x builtins nodes g) c r q a := by
  obtain ⟨p, hp, h⟩ := h
  have hpath : (graphOf x builtins nodes g).pathOf c = p := pathOf_eq hinj hp
  rcases h with ⟨p', h1, h2⟩ | ⟨h1, rfl, h2⟩
  · exact .other h1 (by rw [hpath]; exact h2)
  · exact .own h1 (by rw [hpath]; exact h2)

theorem strOnly {v : Val} (h : StrOnly v) (text : Val → Str) : attrOf text (some v) = .other v.truthy (text v) := by
  cases v with
  | none => exact absurd rfl h.1
  | str t => exact absurd rfl (h.2 t)
  | _ => rfl

/-- A text is rendered in one way. -/
theorem renders_unique {m : Str → Str} {t o o' : Str} {toks : List Str} (hp : Parse t toks true)
    (hinert : ∀ tok ∈ toks, Inert (m tok)) (hnest : NotNested toks) (hdollar : ∀ a b, t ≠ a ++ ['$', '$', '{'] ++ b)
    (h : Renders m t o) (h' : Renders m t o') : o = o' := by
  rw [← renders_fold h hp toks (fun _ => Iff.rfl) hinert hnest hdollar,
    ← renders_fold h' hp toks (fun _ => Iff.rfl) hinert hnest hdollar]

mutual
/-- What a text reads as is what it means to the resolver. -/
theorem reads_means (hinj : ∀ p q c, (p, c) ∈ nodes → (q, c) ∈ nodes → p = q) (hne : ∀ p c, (p, c) ∈ nodes → p ≠ [])
    (hnow : ∀ d a, FlowName builtins a → g.attr? d a = now d a) {c : Nat} {t out : Str} (hc : ∃ p, (p, c) ∈ nodes)
    (h : ReadsAs x builtins nodes now c t out) : Means (graphOf x builtins nodes g) c t out := by
  match h with
  | .text (toks := toks) (m := m) h1 h2 h3 h4 h5 h6 h7 =>
    have hpath : (graphOf x builtins nodes g).pathOf c ≠ [] := by
      obtain ⟨p, hp⟩ := hc
      show pathOf nodes c ≠ []
      rw [pathOf_eq hinj hp]
      exact hne p c hp
    obtain ⟨out', k1, k2⟩ := C66_substitution_partial (graphOf x builtins nodes g) (n := c) hpath h1 (m := m)
      (fun content hm => token_as_means hinj hne hnow hc (h6 content hm)) h5 h4 h2 h3
    rw [renders_unique h1 h4 h2 h3 h7 k1]
    exact k2

theorem token_as_means (hinj : ∀ p q c, (p, c) ∈ nodes → (q, c) ∈ nodes → p = q) (hne : ∀ p c, (p, c) ∈ nodes → p ≠ [])
    (hnow : ∀ d a, FlowName builtins a → g.attr? d a = now d a) {c : Nat} {content r : Str} (hc : ∃ p, (p, c) ∈ nodes)
    (h : TokenAs x builtins nodes now c content r) : TokenMeans (graphOf x builtins nodes g) c content r := by
  match h with
  | .empty => exact .empty
  | .noNode h1 h2 h3 h4 =>
    exact .attr h1 (reads_means hinj hne hnow hc h2) (.noNode (names_attr hinj h3) h4)
  | .noValue (d := d) (a := a) h1 h2 h3 h4 h5 h6 =>
    refine .attr h1 (reads_means hinj hne hnow hc h2) (.noValue (names_attr hinj h3) h4 ?_)
    have e : (graphOf x builtins nodes g).attr d a = attrOf x.text (now d a) := congrArg (attrOf x.text) (hnow d a h5)
    rcases h6 with h6 | h6
    · rw [h6] at e; exact .inl e
    · rw [h6] at e; exact .inr (.inl e)
  | .text (d := d) (a := a) (v := v) h1 h2 h3 h4 h5 h6 h7 =>
    have e : (graphOf x builtins nodes g).attr d a = attrOf x.text (now d a) := congrArg (attrOf x.text) (hnow d a h5)
    rw [h6] at e
    have hv := reads_means hinj hne hnow ⟨_, mem_of_get? h4⟩ h7
    refine .attr h1 (reads_means hinj hne hnow hc h2) ?_
    by_cases hv0 : v = []
    · subst hv0
      have := (means_plain (graphOf x builtins nodes g) d (c := []) (by decide)).1 hv
      subst this
      exact .noValue (names_attr hinj h3) h4 (.inr (.inr e))
    · exact .value (names_attr hinj h3) h4 (.inl ⟨e, hv0⟩) hv
  | .other (d := d) (a := a) (v := v) h1 h2 h3 h4 h5 h6 h7 h8 h9 =>
    have e : (graphOf x builtins nodes g).attr d a = attrOf x.text (now d a) := congrArg (attrOf x.text) (hnow d a h5)
    rw [h6, strOnly h7, h8] at e
    exact .attr h1 (reads_means hinj hne hnow hc h2)
      (.value (names_attr hinj h3) h4 (.inr e) (reads_means hinj hne hnow ⟨_, mem_of_get? h4⟩ h9))
  | .falsy (d := d) (a := a) (v := v) h1 h2 h3 h4 h5 h6 h7 h8 =>
    have e : (graphOf x builtins nodes g).attr d a = attrOf x.text (now d a) := congrArg (attrOf x.text) (hnow d a h5)
    rw [h6, strOnly h7, h8] at e
    exact .attr h1 (reads_means hinj hne hnow hc h2) (.falseValue (names_attr hinj h3) h4 e (not_protected h5))
  | .path (p := p) h1 =>
    have e : (graphOf x builtins nodes g).pathOf c = p := pathOf_eq hinj h1
    rw [← e]
    exact .path
  | .color =>
    cases hcol : x.color c with
    | none => exact .noColor hcol
    | some s => exact .color hcol
  | .filepath h1 => exact .filepath (reads_means hinj hne hnow hc h1)
  | .file (r' := r') h1 h2 =>
    by_cases hf : x.fileExists (x.expandFile r') = true
    · rw [if_pos hf]
      exact .file (reads_means hinj hne hnow hc h1) (reads_means hinj hne hnow hc h2) hf
    · rw [if_neg hf]
      exact .noFile (reads_means hinj hne hnow hc h1) (reads_means hinj hne hnow hc h2) ((Bool.not_eq_true _).mp hf)
  | .contents h1 h2 h3 =>
    exact .contents (reads_means hinj hne hnow hc h1) h2 (reads_means hinj hne hnow hc h3)
  | .noContents h1 h2 => exact .noContents (reads_means hinj hne hnow hc h1) h2
end

/-- A text passed on is the text of the value at the end. -/
theorem forwards_reads {c : Nat} {t : Str} {v : Val} (h : Forwards x builtins nodes now c t v) (hv : StrOnly v)
    (hin : Inert (x.text v)) : ReadsAs x builtins nodes now c t (x.text v) := by
  have hplain : ∀ (c : Nat) (s : Str), opens s = 0 → ReadsAs x builtins nodes now c s s := by
    intro c s hs
    refine .text (toks := []) (m := id) (.done hs) (fun _ h => nomatch h) ?_ (fun _ h => nomatch h) (fun _ h => nomatch h)
      (fun _ h => nomatch h) (.done hs)
    intro a b hab
    refine (Tokens.opens_eq_zero_iff _).1 hs (a ++ ['$']) b ?_
    rw [hab]
    simp [Tokens.PREFIX]
  have hone : ∀ (c : Nat) (content : Str), opens content = 0 → '}' ∉ content →
      (∀ p ∈ x.plugins, p.detect content = false) → TokenAs x builtins nodes now c content (x.text v) →
      ReadsAs x builtins nodes now c (['$', '{'] ++ content ++ ['}']) (x.text v) := by
    intro c content h1 h2 h3 h4
    obtain ⟨s1, s2, s3, s4⟩ := single h1 h2
    have ht : IsToken (['$', '{'] ++ content ++ ['}']) := atomic_isToken ⟨content, rfl, h1, h2⟩
    have hr := Renders.tok (m := fun _ => x.text v) (gap := []) (t := ['$', '{'] ++ content ++ ['}']) (rest := [])
      (by decide) ht (.done (by decide))
    rw [List.append_nil, List.append_nil] at hr
    refine .text (m := fun _ => x.text v) s1 s2 s3 (fun _ _ => hin) ?_ ?_ hr
    · intro content' hm
      rw [List.mem_singleton] at hm
      rw [List.append_cancel_left (List.append_cancel_right hm)]
      exact h3
    · intro content' hm
      rw [List.mem_singleton] at hm
      rw [List.append_cancel_left (List.append_cancel_right hm)]
      exact h4
  induction h with
  | here h1 h2 h3 h4 h5 h6 h7 h8 =>
    refine hone _ _ h2 h3 h4 ?_
    rename_i v
    cases htr : v.truthy with
    | true => exact .other h1 (hplain _ _ h2) h5 h6 h7 h8 hv htr (hplain _ _ hin.1)
    | false => exact .falsy h1 (hplain _ _ h2) h5 h6 h7 h8 hv htr
  | on h1 h2 h3 h4 h5 h6 h7 h8 _ ih =>
    exact hone _ _ h2 h3 h4 (.text h1 (hplain _ _ h2) h5 h6 h7 h8 (ih hv hin hone))

end Living

/-- C151: a text reads as one text only. -/
theorem C151_unique {x : Around} {builtins : List Str} {nodes : Dict Str Nat}
    (hinj : ∀ p q c, (p, c) ∈ nodes → (q, c) ∈ nodes → p = q) (hne : ∀ p c, (p, c) ∈ nodes → p ≠ []) (g : Classes)
    {p : Str} {c : Nat} (hc : (p, c) ∈ nodes) {t out out' : Str} (h : ReadsAs x builtins nodes g.attr? c t out)
    (h' : ReadsAs x builtins nodes g.attr? c t out') : out = out' :=
  Resolve.means_det _ (Living.reads_means hinj hne (fun _ _ _ => rfl) ⟨p, hc⟩ h)
    (Living.reads_means hinj hne (g := g) (fun _ _ _ => rfl) ⟨p, hc⟩ h')

/-- C151, partial: chains of references.  As in `C142_reads_partial` there is a list of what each run wrote which gives the
values all attributes have at each run.  If all attributes of a node can be read its code is run, and a text is given to
the code as what it reads as with these values, or as the value of that literal: references in the texts referred to are
followed from node to node, references are put together from references, files and their contents are taken in.

Missing: tokens whose text stands inside of another one, `$${`, and values with `${` in them after reading, see C66;
tokens of plugins; attributes of the system; code which deletes attributes of its frame (see `C40_deleted_violation`). -/
theorem C151_reads_partial (x : Around) (e : Env) (hk : Keeps e) (nodes : Dict Str Nat)
    (hinj : ∀ p q c, (p, c) ∈ nodes → (q, c) ∈ nodes → p = q) (hne : ∀ p c, (p, c) ∈ nodes → p ≠ [])
    (clock : State → Int) (ps : List Str) (s : State) (ts : Exec.Times) (hc : AllClosed ts)
    (hm : ∀ p c, get? p nodes = some c → (s.classes.mro c).isSome)
    {en : Exec.End} {s' : State} {ts' : Exec.Times} {tr : List (Str × Exec.Outcome)}
    (h : execute (live x nodes e) nodes clock ps s ts = (en, s', ts', tr)) :
    ∃ hist : List Wrote,
      hist.map (fun w => some w.cls) = tr.map (fun x => get? x.1 nodes) ∧
      ∀ i w q o, hist[i]? = some w → tr[i]? = some (q, o) →
        let now := fun d a => (s.classes.mro d).bind (fun l => sees (fun d a => get? a (s.classes.own d)) (hist.take i) l a)
        (o = .error ∧ (∀ a, w.vals a = none) ∧ ∃ g : Classes, (∀ d a, FlowName e.builtins a → g.attr? d a = now d a) ∧
          ∃ a v, FlowName e.builtins a ∧ now w.cls a = some v ∧
            ∀ u, ¬ Read (resolveNow x e.builtins nodes g w.cls) e.lit v u) ∨
        ∃ (f : Frame) (code : Str), o = (e.exec code f).2 ∧
          ∀ y t out, FlowName e.builtins y → now w.cls y = some (.str t) → ReadsAs x e.builtins nodes now w.cls t out →
            ∃ u, get? y f.self = some u ∧ LiteralOf e.lit out u := by
  obtain ⟨hist, h1, -, h3⟩ := C116_flow_partial (live x nodes e) hk nodes clock ps s ts hc hm h
  refine ⟨hist, h1, fun i w q o hw hx => ?_⟩
  intro now
  obtain ⟨g, g', globals, hg, hsays⟩ := h3 i w (q, o) hw hx
  have hnow : ∀ d a, FlowName e.builtins a → g'.attr? d a = now d a := by
    intro d a ha
    rw [(hg d a ha).2, (hg d a ha).1]
  have hfound : ∀ a, FlowName e.builtins a → g.attr? w.cls a = now w.cls a := fun a ha => (hg w.cls a ha).1
  rcases hsays with ⟨⟨a, v, k1, k2, k3⟩, k4, k5⟩ | ⟨f, f1, f2, f3, f4⟩
  · exact .inl ⟨k4, k5, g', hnow, a, v, k1, by rw [← hfound a k1]; exact k2, k3⟩
  · refine .inr ⟨f, e.code g w.cls, f3, fun y t out hy hyt hreads => ?_⟩
    have hcls : get? q nodes = some w.cls := by
      have e1 : (hist.map (fun w => some w.cls))[i]? = some (some w.cls) := by rw [List.getElem?_map, hw]; rfl
      rw [h1, List.getElem?_map, hx] at e1
      exact Option.some.inj e1
    have o2 := Living.reads_means hinj hne hnow ⟨q, mem_of_get? hcls⟩ hreads
    rcases f2 y hy with ⟨k1, -⟩ | ⟨v, u, k1, k2, k3⟩
    · rw [hfound y hy, hyt] at k1; cases k1
    · rw [hfound y hy, hyt] at k1
      cases k1
      refine ⟨u, k2, ?_⟩
      cases k3 with
      | other hv => exact absurd rfl (hv t)
      | text hr hl =>
        have := Living.resolveNow_means o2 hr
        subst this
        exact .inl ⟨hl, rfl⟩
      | literal hr hl =>
        have := Living.resolveNow_means o2 hr
        subst this
        exact .inr hl

/-- C151, partial: a value is passed on through a chain of references of any length.  If the text of an attribute is one
reference to an attribute whose text is one reference, and so on, and the last attribute then has a value which is neither
`None` nor a text and which is the value of its own `str`, the code gets exactly this value.

Missing: `None` (see `C142_none_violation`), values whose `str` is no literal. -/
theorem C151_passes_partial (x : Around) (e : Env) (hk : Keeps e) (nodes : Dict Str Nat)
    (hinj : ∀ p q c, (p, c) ∈ nodes → (q, c) ∈ nodes → p = q) (hne : ∀ p c, (p, c) ∈ nodes → p ≠ [])
    (clock : State → Int) (ps : List Str) (s : State) (ts : Exec.Times) (hc : AllClosed ts)
    (hm : ∀ p c, get? p nodes = some c → (s.classes.mro c).isSome)
    {en : Exec.End} {s' : State} {ts' : Exec.Times} {tr : List (Str × Exec.Outcome)}
    (h : execute (live x nodes e) nodes clock ps s ts = (en, s', ts', tr)) :
    ∃ hist : List Wrote,
      hist.map (fun w => some w.cls) = tr.map (fun x => get? x.1 nodes) ∧
      ∀ i w q o, hist[i]? = some w → tr[i]? = some (q, o) → o ≠ .error →
        let now := fun d a => (s.classes.mro d).bind (fun l => sees (fun d a => get? a (s.classes.own d)) (hist.take i) l a)
        ∃ (f : Frame) (code : Str), o = (e.exec code f).2 ∧
          ∀ y t v, FlowName e.builtins y → now w.cls y = some (.str t) → Forwards x e.builtins nodes now w.cls t v →
            StrOnly v → Inert (x.text v) → e.lit (x.text v) = .val v → get? y f.self = some v := by
  obtain ⟨hist, h1, h2⟩ := C151_reads_partial x e hk nodes hinj hne clock ps s ts hc hm h
  refine ⟨hist, h1, fun i w q o hw hx ho => ?_⟩
  intro now
  rcases h2 i w q o hw hx with ⟨k, _⟩ | ⟨f, code, f1, f2⟩
  · exact absurd k ho
  · refine ⟨f, code, f1, fun y t v hy hyt hfw hv hin hlit => ?_⟩
    obtain ⟨u, o2, o3⟩ := f2 y t _ hy hyt (Living.forwards_reads hfw hv hin)
    rw [o2]
    rcases o3 with ⟨o3, -⟩ | o3
    · rcases o3 with o3 | o3 <;> rw [hlit] at o3 <;> cases o3
    · rw [hlit] at o3
      cases o3
      rfl

/-! ### Examples -/

/-- Three nodes; the third refers to the second, in one attribute by a name put together from another attribute, and the
second to the first. -/
def exChainClasses : Classes where
  size := 4
  bases := fun d => if d = 1 ∨ d = 2 ∨ d = 3 then [0] else []
  own := fun d =>
    if d = 1 then [("x".toList, .num 1)]
    else if d = 2 then [("x".toList, .str "${/a.x}".toList)]
    else if d = 3 then [("y".toList, .str "${/b.x}".toList), ("z".toList, .str "${/${who}.x}".toList),
      ("who".toList, .str "b".toList), ("seen".toList, .num 0), ("list".toList, .num 0)]
    else []

def exChainNodes : Dict Str Nat := [("/a".toList, 1), ("/b".toList, 2), ("/c".toList, 3)]

/-- What the third node got, after the nodes were run in the given order. -/
def exChainSeen (ps : List Str) : Option Val × Option Val :=
  let r := execute (live exRefAround exChainNodes exRefEnv) exChainNodes (fun _ => 0) ps ⟨exChainClasses, []⟩ []
  (r.2.1.classes.attr? 3 "seen".toList, r.2.1.classes.attr? 3 "list".toList)

/-- The value set by the first node reaches the third through the text of the second. -/
example : (match exChainSeen ["/a".toList, "/c".toList] with
      | (some (.num n), some (.num k)) => some (n, k) | _ => none) = some (5, 5) ∧
    (match exChainSeen ["/c".toList] with
      | (some (.num n), some (.num k)) => some (n, k) | _ => none) = some (1, 1) := by
  decide +kernel

theorem exChain_name {a : Str} (h : a = "x".toList ∨ a = "y".toList ∨ a = "z".toList ∨ a = "who".toList) :
    FlowName [] a := by
  have hl : a.length ≤ 3 := by rcases h with rfl | rfl | rfl | rfl <;> decide +kernel
  refine ⟨List.not_mem_nil, ?_, ?_⟩
  · rcases h with rfl | rfl | rfl | rfl <;> decide +kernel
  · rintro ⟨b, hb⟩
    have := congrArg List.length hb
    rw [List.length_append, show "__nxt".toList.length = 5 by decide +kernel] at this
    omega

theorem exChain_content {u : Str} (h : u = "/a.x".toList ∨ u = "/b.x".toList ∨ u = "who".toList ∨ u = "/${who}.x".toList) :
    AttrContent u := by
  have hh : u.head? = some '/' ∨ u.head? = some 'w' := by
    rcases h with rfl | rfl | rfl | rfl
    · exact .inl rfl
    · exact .inl rfl
    · exact .inr rfl
    · exact .inl rfl
  refine ⟨?_, ?_, ?_, ?_, ?_, ?_⟩
  · rintro rfl
    simp at hh
  all_goals
    intros
    rintro rfl
    revert hh
    simp

theorem exChain_forwards (now : Nat → Str → Option Val) (v : Val) (h1 : now 1 "x".toList = some v)
    (h2 : now 2 "x".toList = some (.str "${/a.x}".toList)) :
    Forwards exRefAround [] exChainNodes now 3 "${/b.x}".toList v := by
  refine .on (content := "/b.x".toList) (d := 2) (q := "/b".toList) (a := "x".toList) (exChain_content (by simp))
    (by decide +kernel) (by decide +kernel) (fun _ h => nomatch h) ⟨"/c".toList, by decide +kernel, .inl ⟨"/b".toList,
      ⟨by decide +kernel, by decide +kernel, by decide +kernel, by decide +kernel⟩, by decide +kernel⟩⟩ (by decide +kernel)
    (exChain_name (.inl rfl)) h2 ?_
  exact .here (content := "/a.x".toList) (d := 1) (q := "/a".toList) (a := "x".toList) (exChain_content (by simp))
    (by decide +kernel) (by decide +kernel) (fun _ h => nomatch h) ⟨"/b".toList, by decide +kernel, .inl ⟨"/a".toList,
      ⟨by decide +kernel, by decide +kernel, by decide +kernel, by decide +kernel⟩, by decide +kernel⟩⟩ (by decide +kernel)
    (exChain_name (.inl rfl)) h1

/-- A text which is one token reads as what the token stands for. -/
theorem exChain_one {now : Nat → Str → Option Val} {c : Nat} {content r : Str}
    (ht : IsToken (['$', '{'] ++ content ++ ['}'])) (hd : ∀ a b, ['$', '{'] ++ content ++ ['}'] ≠ a ++ ['$', '$', '{'] ++ b)
    (hin : Inert r) (h : TokenAs exRefAround [] exChainNodes now c content r) :
    ReadsAs exRefAround [] exChainNodes now c (['$', '{'] ++ content ++ ['}']) r := by
  have hp := Parse.tok (g := []) (t := ['$', '{'] ++ content ++ ['}']) (rest := []) (by decide) ht (.done (by decide))
  have hr := Renders.tok (m := fun _ => r) (gap := []) (t := ['$', '{'] ++ content ++ ['}']) (rest := [])
    (by decide) ht (.done (by decide))
  rw [List.append_nil, List.append_nil] at hr
  rw [List.append_nil] at hp
  refine .text (m := fun _ => r) hp ?_ hd (fun _ _ => hin) (fun _ _ _ h => nomatch h) ?_ hr
  · intro t1 h1 t2 h2 a b hab
    rw [List.mem_singleton] at h1 h2
    have hl := congrArg List.length hab
    rw [h1, h2] at hl
    simp only [List.length_append] at hl
    exact List.length_eq_zero_iff.1 (by omega)
  · intro content' hm
    rw [List.mem_singleton] at hm
    rw [List.append_cancel_left (List.append_cancel_right hm)]
    exact h

theorem exChain_nested : IsToken "${/${who}.x}".toList := by
  refine ⟨⟨"/${who}.x}".toList, by decide +kernel⟩, by decide +kernel, ?_⟩
  intro p r h hr hp
  have hl := congrArg List.length h
  have hr' : 0 < r.length := List.length_pos_iff.2 hr
  rw [List.length_append] at hl
  have e : p = "${/${who}.x}".toList.take p.length := by rw [h]; simp
  rw [e]
  have h12 : p.length < 12 := by
    have : "${/${who}.x}".toList.length = 12 := by decide +kernel
    omega
  exact (show ∀ n : Fin 12, 2 ≤ n.1 → closes ("${/${who}.x}".toList.take n.1) < opens ("${/${who}.x}".toList.take n.1) by
    decide +kernel) ⟨p.length, h12⟩ hp

theorem exChain_dollar {t : Str} (h : ∀ n ∈ List.range t.length, (t.drop n).take 3 ≠ ['$', '$', '{']) :
    ∀ a b, t ≠ a ++ ['$', '$', '{'] ++ b := by
  rintro a b rfl
  refine h a.length ?_ (by simp)
  rw [List.mem_range]
  simp

/-- A name put together from another attribute: the text reads as the text of the value at the end of the chain. -/
theorem exChain_reads (now : Nat → Str → Option Val) (h1 : now 1 "x".toList = some (.num 1))
    (h2 : now 2 "x".toList = some (.str "${/a.x}".toList)) (h3 : now 3 "who".toList = some (.str "b".toList)) :
    ReadsAs exRefAround [] exChainNodes now 3 "${/${who}.x}".toList "1".toList := by
  have hplain : ∀ (c : Nat) (s : Str), opens s = 0 → (∀ a b, s ≠ a ++ ['$', '$', '{'] ++ b) →
      ReadsAs exRefAround [] exChainNodes now c s s := fun c s hs hd =>
    .text (toks := []) (m := id) (.done hs) (fun _ h => nomatch h) hd (fun _ h => nomatch h) (fun _ h => nomatch h)
      (fun _ h => nomatch h) (.done hs)
  have hb : ReadsAs exRefAround [] exChainNodes now 2 "${/a.x}".toList "1".toList := by
    have : Forwards exRefAround [] exChainNodes now 2 "${/a.x}".toList (.num 1) :=
      .here (content := "/a.x".toList) (d := 1) (q := "/a".toList) (a := "x".toList) (exChain_content (by simp))
        (by decide +kernel) (by decide +kernel) (fun _ h => nomatch h) ⟨"/b".toList, by decide +kernel, .inl ⟨"/a".toList,
          ⟨by decide +kernel, by decide +kernel, by decide +kernel, by decide +kernel⟩, by decide +kernel⟩⟩
        (by decide +kernel) (exChain_name (.inl rfl)) h1
    exact Living.forwards_reads this ⟨nofun, nofun⟩ ⟨by decide +kernel, by decide +kernel⟩
  have hwho : TokenAs exRefAround [] exChainNodes now 3 "who".toList "b".toList :=
    .text (d := 3) (q := "/c".toList) (a := "who".toList) (r := "who".toList) (exChain_content (by simp))
      (hplain _ _ (by decide +kernel) (exChain_dollar (by decide +kernel)))
      ⟨"/c".toList, by decide +kernel, .inr ⟨by
        intro p a h
        have := congrArg (fun l => decide ('.' ∈ l)) h.1
        revert this
        simp, rfl, by decide +kernel⟩⟩ (by decide +kernel) (exChain_name (by simp)) h3
      (hplain _ _ (by decide +kernel) (exChain_dollar (by decide +kernel)))
  have hcontent : ReadsAs exRefAround [] exChainNodes now 3 "/${who}.x".toList "/b.x".toList := by
    have htok : IsToken "${who}".toList := atomic_isToken ⟨"who".toList, by decide +kernel, by decide +kernel, by decide +kernel⟩
    have hp := Parse.tok (g := "/".toList) (t := "${who}".toList) (rest := ".x".toList) (by decide +kernel) htok
      (.done (by decide +kernel))
    have hr := Renders.tok (m := fun _ => "b".toList) (gap := "/".toList) (t := "${who}".toList) (rest := ".x".toList)
      (by decide +kernel) htok (.done (by decide +kernel))
    refine .text (m := fun _ => "b".toList) hp ?_ (exChain_dollar (by decide +kernel))
      (fun _ _ => ⟨by decide +kernel, by decide +kernel⟩) (fun _ _ _ h => nomatch h) ?_ hr
    · intro t1 k1 t2 k2 a b hab
      rw [List.mem_singleton] at k1 k2
      have hl := congrArg List.length hab
      rw [k1, k2] at hl
      simp only [List.length_append] at hl
      exact List.length_eq_zero_iff.1 (by omega)
    · intro content' hm
      rw [List.mem_singleton] at hm
      have : content' = "who".toList :=
        List.append_cancel_left (as := ['$', '{']) (List.append_cancel_right (bs := ['}']) (hm.trans (by decide +kernel)))
      rw [this]
      exact hwho
  refine exChain_one (content := "/${who}.x".toList) exChain_nested (exChain_dollar (by decide +kernel))
    ⟨by decide +kernel, by decide +kernel⟩ ?_
  exact .text (d := 2) (q := "/b".toList) (a := "x".toList) (exChain_content (by simp)) hcontent
    ⟨"/c".toList, by decide +kernel, .inl ⟨"/b".toList,
      ⟨by decide +kernel, by decide +kernel, by decide +kernel, by decide +kernel⟩, by decide +kernel⟩⟩ (by decide +kernel)
    (exChain_name (.inl rfl)) h2 hb

/-- The theorems apply: the code of the third node, run alone, gets the value 1 twice. -/
example : ∃ (f : Frame) (code : Str), .ok = (exRefEnv.exec code f).2 ∧ get? "y".toList f.self = some (.num 1) ∧
    get? "z".toList f.self = some (.num 1) := by
  have htr : (execute (live exRefAround exChainNodes exRefEnv) exChainNodes (fun _ => 0) ["/c".toList]
      ⟨exChainClasses, []⟩ []).2.2.2 = [("/c".toList, .ok)] := by decide +kernel
  rcases hx : execute (live exRefAround exChainNodes exRefEnv) exChainNodes (fun _ => 0) ["/c".toList]
      ⟨exChainClasses, []⟩ [] with ⟨en, s', ts', tr⟩
  rw [hx] at htr
  replace htr : tr = _ := htr
  subst htr
  obtain ⟨hist, h1, h2⟩ := C151_reads_partial exRefAround exRefEnv exRef_keeps exChainNodes (by
      intro p q c h1 h2
      simp only [exChainNodes, List.mem_cons, List.not_mem_nil, or_false, Prod.mk.injEq] at h1 h2
      rcases h1 with ⟨rfl, rfl⟩ | ⟨rfl, rfl⟩ | ⟨rfl, rfl⟩ <;> rcases h2 with ⟨rfl, h⟩ | ⟨rfl, h⟩ | ⟨rfl, h⟩ <;>
        first | rfl | exact absurd h (by decide))
    (by
      intro p c h
      simp only [exChainNodes, List.mem_cons, List.not_mem_nil, or_false, Prod.mk.injEq] at h
      rcases h with ⟨rfl, _⟩ | ⟨rfl, _⟩ | ⟨rfl, _⟩ <;> decide +kernel)
    (fun _ => 0) ["/c".toList] ⟨exChainClasses, []⟩ [] (fun _ h => nomatch h) (by
      intro p c h
      have hm : (p, c) ∈ exChainNodes := mem_of_get? h
      simp only [exChainNodes, List.mem_cons, List.not_mem_nil, or_false, Prod.mk.injEq] at hm
      rcases hm with ⟨-, rfl⟩ | ⟨-, rfl⟩ | ⟨-, rfl⟩ <;> decide +kernel) hx
  match hist, h1, h2 with
  | [], h1, _ => cases h1
  | w :: rest, h1, h2 =>
    have hw : w.cls = 3 := Option.some.inj (List.cons.inj h1).1
    rcases h2 0 w "/c".toList .ok rfl rfl with ⟨k, _⟩ | ⟨f, code, f1, f2⟩
    · cases k
    · have hlit : ∀ u, LiteralOf exRefEnv.lit "1".toList u → u = .num 1 := by
        intro u hu
        have e : exRefEnv.lit "1".toList = .val (.num 1) := rfl
        rcases hu with ⟨hu, -⟩ | hu
        · rcases hu with hu | hu <;> rw [e] at hu <;> cases hu
        · rw [e] at hu
          cases hu
          rfl
      obtain ⟨u, u1, u2⟩ := f2 "y".toList "${/b.x}".toList "1".toList (exChain_name (by simp)) (by rw [hw]; rfl) (by
        rw [hw]
        exact Living.forwards_reads (v := .num 1) (exChain_forwards _ _ rfl rfl) ⟨nofun, nofun⟩
          ⟨by decide +kernel, by decide +kernel⟩)
      obtain ⟨u', u3, u4⟩ := f2 "z".toList "${/${who}.x}".toList "1".toList (exChain_name (by simp)) (by rw [hw]; rfl) (by
        rw [hw]
        exact exChain_reads _ rfl rfl rfl)
      rw [hlit u u2] at u1
      rw [hlit u' u4] at u3
      exact ⟨f, code, f1, u1, u3⟩

end Nxt.Props
