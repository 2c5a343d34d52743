import Verif.Spec.Live
import Verif.Props.Flow
import Verif.Props.Resolve
/-!
# Properties of references while nodes are run
-/
namespace Nxt.Props
open Dict NodeData Mro Rt Flow Spec Live

namespace Living

theorem pathOf_eq {nodes : Dict Str Nat} (hinj : ∀ p q c, (p, c) ∈ nodes → (q, c) ∈ nodes → p = q) {p : Str} {c : Nat}
    (h : (p, c) ∈ nodes) : pathOf nodes c = p := by
  unfold pathOf
  cases hf : nodes.find? (fun e => decide (e.2 = c)) with
  | none =>
    have := List.find?_eq_none.1 hf _ h
    simp at this
  | some e =>
    have h1 := List.mem_of_find?_eq_some hf
    have h2 : e.2 = c := by simpa using List.find?_some hf
    exact hinj e.1 p c (by rw [← h2]; exact h1) h

theorem not_protected {builtins : List Str} {a : Str} (h : FlowName builtins a) :
    decide (a ∈ protectedNames builtins) = false := by
  rw [decide_eq_false_iff_not]
  unfold protectedNames
  intro hm
  rcases List.mem_append.1 hm with hm | hm
  · rcases List.mem_append.1 hm with hm | hm
    · rcases List.mem_append.1 hm with hm | hm
      · exact h.1 hm
      · exact h.2.1 ((show ∀ a ∈ TRACKED, a ∈ reservedNames by decide +kernel) a hm)
    · exact h.2.1 ((show ∀ a ∈ UNTRACKED, a ∈ reservedNames by decide +kernel) a hm)
  · exact h.2.1 ((show ∀ a ∈ [A_CACHED], a ∈ reservedNames by decide +kernel) a hm)

/-- The meaning of one reference. -/
theorem token_means {x : Around} {builtins : List Str} {nodes : Dict Str Nat} {g g' : Classes}
    {now : Nat → Str → Option Val} (hnow : ∀ d a, FlowName builtins a → g'.attr? d a = now d a) {c : Nat} {tok r : Str}
    (h : RefersNow x builtins nodes g now c tok r) :
    ∃ content, tok = ['$', '{'] ++ content ++ ['}'] ∧ (∀ p ∈ x.plugins, p.detect content = false) ∧
      TokenMeans (graphOf x builtins nodes g') c content r := by
  obtain ⟨content, q, a, d, h1, h2, h3, h4, h5, h6, h7, h8, h9⟩ := h
  refine ⟨content, h1, h4, .attr h2 ((means_plain _ c h3).2 rfl) ?_⟩
  have hN : RefNames (graphOf x builtins nodes g') c content q a := by
    cases h5 with
    | other k1 k2 => exact .other k1 k2
    | own k1 k2 => exact .own k1 k2
  have hattr : (graphOf x builtins nodes g').attr d a = attrOf x.text (now d a) := by
    show attrOf x.text (g'.attr? d a) = _
    rw [hnow d a h7]
  have hplain : Means (graphOf x builtins nodes g') d r r := (means_plain _ d h9.1).2 rfl
  have hpr : (graphOf x builtins nodes g').isProtected a = false := not_protected h7
  have hother : ∀ v : Val, now d a = some v → attrOf x.text (some v) = .other v.truthy (x.text v) →
      refText x.text (some v) = x.text v → RefMeans (graphOf x builtins nodes g') c content r := by
    intro v hv k1 k2
    rw [hv, k1] at hattr
    rw [hv, k2] at h8
    subst h8
    cases ht : v.truthy with
    | true => rw [ht] at hattr; exact .value hN h6 (.inr hattr) hplain
    | false => rw [ht] at hattr; exact .falseValue hN h6 hattr hpr
  cases hv : now d a with
  | none =>
    rw [hv] at h8 hattr
    rw [h8]
    exact .noValue hN h6 (.inl hattr)
  | some v =>
    cases v with
    | none =>
      rw [hv] at h8 hattr
      rw [h8]
      exact .noValue hN h6 (.inr (.inl hattr))
    | str s =>
      rw [hv] at h8 hattr
      replace h8 : r = s := h8
      subst h8
      by_cases hs : r = []
      · subst hs
        exact .noValue hN h6 (.inr (.inr hattr))
      · exact .value hN h6 (.inl ⟨hattr, hs⟩) hplain
    | bool b => exact hother _ hv rfl rfl
    | num b => exact hother _ hv rfl rfl
    | list b => exact hother _ hv rfl rfl
    | dict b => exact hother _ hv rfl rfl
    | src b b' => exact hother _ hv rfl rfl
    | other b b' b'' => exact hother _ hv rfl rfl

/-- A text with references means the text with the values in their places. -/
theorem text_means {x : Around} {builtins : List Str} {nodes : Dict Str Nat}
    (hinj : ∀ p q c, (p, c) ∈ nodes → (q, c) ∈ nodes → p = q) (hne : ∀ p c, (p, c) ∈ nodes → p ≠ []) {g g' : Classes}
    {now : Nat → Str → Option Val} (hnow : ∀ d a, FlowName builtins a → g'.attr? d a = now d a) {p : Str} {c : Nat}
    (hp : (p, c) ∈ nodes) {t : Str} {ts : List Str} (hparse : Parse t ts true) (hnest : NotNested ts)
    (hdollar : ∀ a b, t ≠ a ++ ['$', '$', '{'] ++ b) {m : Str → Str}
    (hm : ∀ tok ∈ ts, RefersNow x builtins nodes g now c tok (m tok)) :
    ∃ out, Renders m t out ∧ Means (graphOf x builtins nodes g') c t out := by
  refine C66_substitution_partial (graphOf x builtins nodes g') (n := c) ?_ hparse (m := m) ?_ ?_ ?_ hnest hdollar
  · show pathOf nodes c ≠ []
    rw [pathOf_eq hinj hp]
    exact hne p c hp
  · intro content hc
    obtain ⟨content', e1, -, e3⟩ := token_means hnow (hm _ hc)
    have : content = content' := by
      have := List.append_cancel_left (List.append_cancel_right e1)
      exact this
    subst this
    exact e3
  · intro content hc
    obtain ⟨content', e1, e2, -⟩ := token_means hnow (hm _ hc)
    have : content = content' := List.append_cancel_left (List.append_cancel_right e1)
    subst this
    exact e2
  · intro tok ht
    obtain ⟨_, _, _, _, _, _, _, _, _, _, _, _, h⟩ := hm tok ht
    exact h

theorem resolveNow_means {x : Around} {builtins : List Str} {nodes : Dict Str Nat} {g : Classes} {c : Nat} {t out r : Str}
    (h : Means (graphOf x builtins nodes g) c t out) (hr : resolveNow x builtins nodes g c t = some r) : r = out := by
  obtain ⟨f, hf⟩ := h
  unfold resolveNow at hr
  cases hl : Resolve.resolve (graphOf x builtins nodes g) x.limit c t with
  | deep => rw [hl] at hr; cases hr
  | raised => rw [hl] at hr; cases hr
  | ok s =>
    rw [hl] at hr
    cases hr
    rcases Nat.le_total f x.limit with hle | hle
    · have := C06_limit (graphOf x builtins nodes g) hle c t (by rw [hf]; exact fun h => nomatch h)
      rw [hl, hf] at this
      exact Resolve.Out.ok.inj this
    · have := C06_limit (graphOf x builtins nodes g) hle c t (by rw [hl]; exact fun h => nomatch h)
      rw [hl, hf] at this
      exact (Resolve.Out.ok.inj this).symm

/-! ### A text which is one reference -/

theorem renders_parse {m : Str → Str} {t out : Str} (h : Renders m t out) : ∃ ts, Parse t ts true := by
  induction h with
  | done h => exact ⟨[], .done h⟩
  | tok h1 h2 _ ih =>
    obtain ⟨ts, h3⟩ := ih
    exact ⟨_, .tok h1 h2 h3⟩

theorem parse_unique {t : Str} {ts ts' : List Str} (h : Parse t ts true) (h' : Parse t ts' true) : ts = ts' := by
  have h1 := C02_standalone_exact h
  have h2 := C02_standalone_exact h'
  rw [if_pos rfl] at h1 h2
  rw [← h1, ← h2]

theorem single {c : Str} (h0 : opens c = 0) (hb : '}' ∉ c) :
    let t := ['$', '{'] ++ c ++ ['}']
    Parse t [t] true ∧ NotNested [t] ∧ (∀ a b, t ≠ a ++ ['$', '$', '{'] ++ b) ∧
    ∀ m out, Renders m t out → out = m t := by
  intro t
  have ht : IsToken t := atomic_isToken ⟨c, rfl, h0, hb⟩
  have hparse : Parse t [t] true := by
    have := Parse.tok (g := []) (t := t) (rest := []) (by decide) ht (.done (by decide))
    simpa using this
  refine ⟨hparse, ?_, ?_, ?_⟩
  · intro u hu v hv a b hab
    rw [List.mem_singleton] at hu hv
    subst hu
    rw [hv] at hab
    have := congrArg List.length hab
    simp only [List.length_append] at this
    exact List.length_eq_zero_iff.1 (by omega)
  · intro a b hab
    have ho : opens (c ++ ['}']) = 0 := by
      rw [Tokens.opens_append (by rintro ⟨_, h⟩; simp at h), h0]
      rfl
    have hno := (Tokens.opens_eq_zero_iff _).1 ho
    match a, hab with
    | [], hab => exact absurd (List.cons.inj (List.cons.inj hab).2).1 (by decide)
    | [x], hab => exact absurd (List.cons.inj (List.cons.inj hab).2).1 (by decide)
    | x :: y :: a, hab =>
      have := (List.cons.inj (List.cons.inj hab).2).2
      refine hno (a ++ ['$']) b ?_
      have h2 : c ++ ['}'] = a ++ ['$', '$', '{'] ++ b := this
      rw [h2]
      simp [Tokens.PREFIX]
  · intro m out h
    generalize hu : t = u at h
    cases h with
    | done h =>
      rw [← hu] at h
      have := parse_unique hparse (.done h)
      cases this
    | @tok gap tok rest out' h1 h2 h3 =>
      obtain ⟨ts, h4⟩ := renders_parse h3
      have := parse_unique hparse (hu ▸ Parse.tok h1 h2 h4)
      obtain ⟨rfl, rfl⟩ := List.cons.inj this
      have hl := congrArg List.length hu
      simp only [List.length_append] at hl
      have e1 : gap = [] := List.length_eq_zero_iff.1 (by omega)
      have e2 : rest = [] := List.length_eq_zero_iff.1 (by omega)
      subst e1 e2
      have e3 : out' = [] := by
        generalize hz : ([] : Str) = z at h3
        cases h3 with
        | done _ => rfl
        | tok k1 k2 k3 =>
          obtain ⟨_, k4⟩ := renders_parse k3
          have := parse_unique (hz ▸ Parse.tok k1 k2 k4) (Parse.done (by decide))
          cases this
      simp [e3]

end Living

/-- C142, partial: references are read with the values of the moment.  There is a list of what each run wrote, such that
at each run every node has, for each attribute, what the first class of its resolution order has which has any: what was
last written to it, or what it had at the start.  If all attributes of a node can be read its code is run, and a
text with references is given to the code as the text with the values the attributes referred to have then, or as the
value of that literal.

Missing: references in the texts referred to, tokens written inside of each other, and `$${`, see C66; code which
deletes attributes of its frame (see `C40_deleted_violation`). -/
theorem C142_reads_partial (x : Around) (e : Env) (hk : Keeps e) (nodes : Dict Str Nat)
    (hinj : ∀ p q c, (p, c) ∈ nodes → (q, c) ∈ nodes → p = q) (hne : ∀ p c, (p, c) ∈ nodes → p ≠ [])
    (clock : State → Int) (ps : List Str) (s : State) (ts : Exec.Times) (hc : AllClosed ts)
    (hm : ∀ p c, get? p nodes = some c → (s.classes.mro c).isSome)
    {en : Exec.End} {s' : State} {ts' : Exec.Times} {tr : List (Str × Exec.Outcome)}
    (h : execute (live x nodes e) nodes clock ps s ts = (en, s', ts', tr)) :
    ∃ hist : List Wrote,
      hist.map (fun w => some w.cls) = tr.map (fun x => get? x.1 nodes) ∧
      ∀ i w q o, hist[i]? = some w → tr[i]? = some (q, o) →
        let now := fun d a => (s.classes.mro d).bind (fun l => sees (fun d a => get? a (s.classes.own d)) (hist.take i) l a)
        (o = .error ∧ (∀ a, w.vals a = none) ∧ ∃ g : Classes, (∀ d a, FlowName e.builtins a → g.attr? d a = now d a) ∧
          ∃ a v, FlowName e.builtins a ∧ now w.cls a = some v ∧
            ∀ u, ¬ Read (resolveNow x e.builtins nodes g w.cls) e.lit v u) ∨
        ∃ (f : Frame) (code : Str), o = (e.exec code f).2 ∧
          ∀ y t, FlowName e.builtins y → now w.cls y = some (.str t) →
            ∀ toks m, Parse t toks true → NotNested toks → (∀ a b, t ≠ a ++ ['$', '$', '{'] ++ b) →
              (∀ tok ∈ toks, RefersNow x e.builtins nodes s.classes now w.cls tok (m tok)) →
              ∃ out u, Renders m t out ∧ get? y f.self = some u ∧ LiteralOf e.lit out u := by
  obtain ⟨hist, h1, -, h3⟩ := C116_flow_partial (live x nodes e) hk nodes clock ps s ts hc hm h
  refine ⟨hist, h1, fun i w q o hw hx => ?_⟩
  intro now
  obtain ⟨g, g', globals, hg, hsays⟩ := h3 i w (q, o) hw hx
  have hnow : ∀ d a, FlowName e.builtins a → g'.attr? d a = now d a := by
    intro d a ha
    rw [(hg d a ha).2, (hg d a ha).1]
  have hfound : ∀ a, FlowName e.builtins a → g.attr? w.cls a = now w.cls a := fun a ha => (hg w.cls a ha).1
  rcases hsays with ⟨⟨a, v, k1, k2, k3⟩, k4, k5⟩ | ⟨f, f1, f2, f3, f4⟩
  · exact .inl ⟨k4, k5, g', hnow, a, v, k1, by rw [← hfound a k1]; exact k2, k3⟩
  · refine .inr ⟨f, e.code g w.cls, f3, fun y t hy hyt toks m hparse hnest hdollar hmm => ?_⟩
    have hcls : get? q nodes = some w.cls := by
      have e1 : (hist.map (fun w => some w.cls))[i]? = some (some w.cls) := by rw [List.getElem?_map, hw]; rfl
      rw [h1, List.getElem?_map, hx] at e1
      exact Option.some.inj e1
    obtain ⟨out, o1, o2⟩ := Living.text_means hinj hne hnow (mem_of_get? hcls) hparse hnest hdollar hmm
    rcases f2 y hy with ⟨k1, -⟩ | ⟨v, u, k1, k2, k3⟩
    · rw [hfound y hy, hyt] at k1; cases k1
    · rw [hfound y hy, hyt] at k1
      cases k1
      refine ⟨out, u, o1, k2, ?_⟩
      cases k3 with
      | other hv => exact absurd rfl (hv t)
      | text hr hl =>
        have := Living.resolveNow_means o2 hr
        subst this
        exact .inl ⟨hl, rfl⟩
      | literal hr hl =>
        have := Living.resolveNow_means o2 hr
        subst this
        exact .inr hl

/-- C142, partial: a value passed on by reference.  If the text of an attribute is one reference, and the attribute
referred to then has a value which is neither `None` nor a text and which is the value of its own `str`, the code gets
exactly this value.

Missing: `None` (see `C142_none_violation`), values whose `str` is no literal. -/
theorem C142_passes_partial (x : Around) (e : Env) (hk : Keeps e) (nodes : Dict Str Nat)
    (hinj : ∀ p q c, (p, c) ∈ nodes → (q, c) ∈ nodes → p = q) (hne : ∀ p c, (p, c) ∈ nodes → p ≠ [])
    (clock : State → Int) (ps : List Str) (s : State) (ts : Exec.Times) (hc : AllClosed ts)
    (hm : ∀ p c, get? p nodes = some c → (s.classes.mro c).isSome)
    {en : Exec.End} {s' : State} {ts' : Exec.Times} {tr : List (Str × Exec.Outcome)}
    (h : execute (live x nodes e) nodes clock ps s ts = (en, s', ts', tr)) :
    ∃ hist : List Wrote,
      hist.map (fun w => some w.cls) = tr.map (fun x => get? x.1 nodes) ∧
      ∀ i w q o, hist[i]? = some w → tr[i]? = some (q, o) → o ≠ .error →
        let now := fun d a => (s.classes.mro d).bind (fun l => sees (fun d a => get? a (s.classes.own d)) (hist.take i) l a)
        ∃ (f : Frame) (code : Str), o = (e.exec code f).2 ∧
          ∀ y c p a d v, FlowName e.builtins y → now w.cls y = some (.str (['$', '{'] ++ c ++ ['}'])) →
            AttrContent c → opens c = 0 → '}' ∉ c → (∀ p ∈ x.plugins, p.detect c = false) →
            RefNames (graphOf x e.builtins nodes s.classes) w.cls c p a → get? p nodes = some d → FlowName e.builtins a →
            now d a = some v → v ≠ .none → (∀ t, v ≠ .str t) → Inert (x.text v) → e.lit (x.text v) = .val v →
            get? y f.self = some v := by
  obtain ⟨hist, h1, h2⟩ := C142_reads_partial x e hk nodes hinj hne clock ps s ts hc hm h
  refine ⟨hist, h1, fun i w q o hw hx ho => ?_⟩
  intro now
  rcases h2 i w q o hw hx with ⟨k, _⟩ | ⟨f, code, f1, f2⟩
  · exact absurd k ho
  · refine ⟨f, code, f1, fun y c p a d v hy hyt g1 g2 g3 g4 g5 g6 g7 g8 g9 g10 g11 g12 => ?_⟩
    obtain ⟨s1, s2, s3, s4⟩ := Living.single g2 g3
    have hrt : refText x.text (some v) = x.text v := by
      cases v with
      | none => exact absurd rfl g9
      | str t => exact absurd rfl (g10 t)
      | _ => rfl
    obtain ⟨out, u, o1, o2, o3⟩ := f2 y _ hy hyt [['$', '{'] ++ c ++ ['}']] (fun _ => x.text v) s1 s2 s3 (by
      intro tok ht
      rw [List.mem_singleton] at ht
      refine ⟨c, p, a, d, ht, g1, g2, g4, g5, g6, g7, ?_, g11⟩
      show x.text v = refText x.text (now d a)
      rw [g8, hrt])
    have := s4 _ _ o1
    subst this
    rw [o2]
    rcases o3 with ⟨o3, -⟩ | o3
    · rcases o3 with o3 | o3 <;> rw [g12] at o3 <;> cases o3
    · rw [g12] at o3
      cases o3
      rfl

/-! ### Examples -/

/-- Two nodes; the second refers to the first. -/
def exRefClasses (v : Val) : Classes where
  size := 3
  bases := fun d => if d = 1 ∨ d = 2 then [0] else []
  own := fun d =>
    if d = 1 then [("x".toList, v)]
    else if d = 2 then [("y".toList, .str "${/a.x}".toList), ("z".toList, .str "[${../a.x}, 123]".toList),
      ("seen".toList, .num 0), ("list".toList, .num 0)]
    else []

def exRefNodes : Dict Str Nat := [("/a".toList, 1), ("/b".toList, 2)]

def exRefAround : Around where
  text := fun v => match v with | .num 1 => "1".toList | .num 5 => "5".toList | _ => "?".toList
  color := fun _ => none
  expandFile := id
  fileExists := fun _ => false
  contents := fun _ => none
  plugins := []
  limit := 10

/-- The code of the first node sets its attribute to 5, the code of the second keeps what it gets. -/
def exRefEnv : Env where
  builtins := []
  eq := fun a b => match a, b with | .num a, .num b => a == b | _, _ => false
  layer := none
  resolve := fun _ _ t => some t
  lit := fun t => if t = "1".toList then .val (.num 1) else if t = "5".toList then .val (.num 5)
    else if t = "[5, 123]".toList then .val (.list [.num 5, .num 123]) else .raw
  code := fun _ c => if c = 1 then "set".toList else "keep".toList
  lines := fun t => [t]
  asGlobal := false
  selfObj := .none
  exec := fun code f =>
    if code = "set".toList then (⟨set "x".toList (.num 5) f.self, f.globals⟩, .ok)
    else (⟨set "seen".toList ((get? "y".toList f.self).getD .none)
      (set "list".toList ((get? "z".toList f.self).getD .none) f.self), f.globals⟩, .ok)

/-- What the second node got, after both were run in the given order. -/
def exRefSeen (v : Val) (ps : List Str) : Option Val × Option Val :=
  let r := execute (live exRefAround exRefNodes exRefEnv) exRefNodes (fun _ => 0) ps ⟨exRefClasses v, []⟩ []
  (r.2.1.classes.attr? 2 "seen".toList, r.2.1.classes.attr? 2 "list".toList)

/-- The value set by the first node reaches the second, if the first is run before it. -/
example : (match exRefSeen (.num 1) ["/a".toList, "/b".toList] with
      | (some (.num n), some (.list [.num k, .num l])) => some (n, k, l) | _ => none) = some (5, 5, 123) ∧
    (match exRefSeen (.num 1) ["/b".toList, "/a".toList] with
      | (some (.num n), _) => some n | _ => none) = some 1 := by
  decide +kernel

/-- C142 fails: a reference to an attribute which is `None` gives an empty text. -/
theorem C142_none_violation : (match exRefSeen .none ["/b".toList] with
      | (some (.str t), _) => some t | _ => none) = some [] ∧
    (exRefClasses .none).attr? 1 "x".toList = some .none := by
  exact ⟨by decide +kernel, rfl⟩

theorem exRef_keeps : Keeps exRefEnv := by
  intro code f a ha
  show a ∈ keys (if code = "set".toList then _ else _ : Frame × Exec.Outcome).1.self
  split
  · exact mem_keys_set.2 (.inr ha)
  · exact mem_keys_set.2 (.inr (mem_keys_set.2 (.inr ha)))

theorem exRef_name {a : Str} (h : a = "x".toList ∨ a = "y".toList) : FlowName [] a := by
  have hl : a.length = 1 := by rcases h with rfl | rfl <;> decide +kernel
  refine ⟨List.not_mem_nil, ?_, ?_⟩
  · rcases h with rfl | rfl <;> decide +kernel
  · rintro ⟨b, hb⟩
    have := congrArg List.length hb
    rw [List.length_append, hl, show "__nxt".toList.length = 5 by decide +kernel] at this
    omega

/-- The theorem applies to it: the code of the second node, run alone, gets the value 1. -/
example : ∃ (f : Frame) (code : Str), .ok = (exRefEnv.exec code f).2 ∧ get? "y".toList f.self = some (.num 1) := by
  have htr : (execute (live exRefAround exRefNodes exRefEnv) exRefNodes (fun _ => 0) ["/b".toList]
      ⟨exRefClasses (.num 1), []⟩ []).2.2.2 = [("/b".toList, .ok)] := by decide +kernel
  rcases hx : execute (live exRefAround exRefNodes exRefEnv) exRefNodes (fun _ => 0) ["/b".toList]
      ⟨exRefClasses (.num 1), []⟩ [] with ⟨en, s', ts', tr⟩
  rw [hx] at htr
  replace htr : tr = _ := htr
  subst htr
  obtain ⟨hist, h1, h2⟩ := C142_passes_partial exRefAround exRefEnv exRef_keeps exRefNodes (by
      intro p q c h1 h2
      simp only [exRefNodes, List.mem_cons, List.not_mem_nil, or_false, Prod.mk.injEq] at h1 h2
      rcases h1 with ⟨rfl, rfl⟩ | ⟨rfl, rfl⟩ <;> rcases h2 with ⟨rfl, h⟩ | ⟨rfl, h⟩ <;> first | rfl | exact absurd h (by decide))
    (by
      intro p c h
      simp only [exRefNodes, List.mem_cons, List.not_mem_nil, or_false, Prod.mk.injEq] at h
      rcases h with ⟨rfl, _⟩ | ⟨rfl, _⟩ <;> decide +kernel)
    (fun _ => 0) ["/b".toList] ⟨exRefClasses (.num 1), []⟩ [] (fun _ h => nomatch h) (by
      intro p c h
      have hm : (p, c) ∈ exRefNodes := mem_of_get? h
      simp only [exRefNodes, List.mem_cons, List.not_mem_nil, or_false, Prod.mk.injEq] at hm
      rcases hm with ⟨-, rfl⟩ | ⟨-, rfl⟩ <;> decide +kernel) hx
  match hist, h1, h2 with
  | [], h1, _ => cases h1
  | w :: rest, h1, h2 =>
    have hw : w.cls = 2 := Option.some.inj (List.cons.inj h1).1
    obtain ⟨f, code, f1, f2⟩ := h2 0 w "/b".toList .ok rfl rfl (fun h => nomatch h)
    refine ⟨f, code, f1, f2 "y".toList "/a.x".toList "/a".toList "x".toList 1 (.num 1) (exRef_name (.inr rfl)) ?_ ?_ ?_ ?_ ?_ ?_ ?_
      (exRef_name (.inl rfl)) ?_ ?_ ?_ ?_ ?_⟩
    · rw [hw]
      rfl
    · refine ⟨by decide +kernel, ?_, ?_, ?_, by decide +kernel, by decide +kernel⟩ <;>
      · intro u h
        have := congrArg List.head? h
        revert this
        simp
    · decide +kernel
    · decide +kernel
    · intro p hp
      cases hp
    · rw [hw]
      exact .other (p := "/a".toList) ⟨by decide +kernel, by decide +kernel, by decide +kernel, by decide +kernel⟩ (by decide +kernel)
    · decide +kernel
    · rfl
    · intro h
      cases h
    · intro t h
      cases h
    · exact ⟨by decide +kernel, by decide +kernel⟩
    · rfl

end Nxt.Props
