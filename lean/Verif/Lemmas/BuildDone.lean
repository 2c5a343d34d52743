import Verif.Lemmas.BuildTables
import Verif.Lemmas.BuildChain
import Verif.Props.ProxiesPlain
/-!
# The composition of layers whose instances are separate
-/
namespace Nxt.Build
open Dict NodeData Spec Path

variable {layers : List Comp.LayerNodes}

theorem get?_mapNode {V W : Type} (f : V → W) (p : Str) : ∀ d : Dict Str V, get? p (d.map (fun e => (e.1, f e.2))) = (get? p d).map f := by
  intro d
  induction d with
  | nil => rfl
  | cons e d ih =>
    obtain ⟨k, v⟩ := e
    rw [List.map_cons]
    simp only [get?]
    split
    · rfl
    · exact ih

/-- The instance path of a node before proxies are made. -/
theorem inst_compNode (h : SpecNodes layers) {p : Str} (hs : stack layers p ≠ []) :
    textOf ((Comp.compNode p (stack layers p)).attr A_INSTANCE) =
      match (strongest (stack layers p) "_instance".toList).bind (get? "_instance".toList) with
      | some (.str s) => some s
      | _ => none := by
  have hhas : ∀ n ∈ stack layers p, (get? A_INSTANCE n).isSome := by
    intro n hn
    obtain ⟨l, hl, hm⟩ := Props.mem_stack hn
    exact h.keys l hl p n hm _ (by decide +kernel)
  have hown : get? A_INSTANCE (Comp.compNode p (stack layers p)).own =
      (strongest (stack layers p) A_INSTANCE).map (fun n => getAttr n A_INSTANCE) := by
    unfold Comp.compNode
    simp only
    rw [get?_set, if_neg (by decide +kernel)]
    have key : ∀ own co, get? A_INSTANCE own = none →
        get? A_INSTANCE ((stack layers p).reverse.foldl (Comp.overloadBase p) (own, co)).1 =
          (strongest (stack layers p) A_INSTANCE).map (fun n => getAttr n A_INSTANCE) := by
      intro own co hown
      rw [(Comp.overload_fold p (stack layers p) own co A_INSTANCE (by decide +kernel)).1, hown]
      cases strongest (stack layers p) A_INSTANCE <;> rfl
    apply key
    cases (stack layers p).head? with
    | none => rfl
    | some m => simp only [get?]; rw [if_neg (by decide +kernel)]
  have hne : ∀ n ∈ stack layers p, ∀ v, get? A_INSTANCE n = some v → getAttr n A_INSTANCE = v := fun n _ v hv => getAttr_of_get? hv
  unfold Comp.CompNode.attr
  rw [hown, show "_instance".toList = A_INSTANCE from rfl]
  cases hst : strongest (stack layers p) A_INSTANCE with
  | some n =>
    have hn : n ∈ stack layers p := List.mem_of_find?_eq_some hst
    obtain ⟨v, hv⟩ := Option.isSome_iff_exists.1 (hhas n hn)
    simp only [Option.map_some, Option.bind_some, hne n hn v hv, hv, Option.some_or, Option.getD_some]
    cases v <;> rfl
  | none =>
    simp only [Option.map_none, Option.bind_none, Option.none_or]
    obtain ⟨n, t, hnt⟩ := List.exists_cons_of_ne_nil hs
    have hb : (Comp.compNode p (stack layers p)).bases = stack layers p := rfl
    rw [hb]
    have hn : n ∈ stack layers p := by rw [hnt]; simp
    obtain ⟨v, hv⟩ := Option.isSome_iff_exists.1 (hhas n hn)
    have hop : v.hasOpinion = false := by
      unfold strongest at hst
      rw [List.find?_eq_none] at hst
      have := hst n hn
      rw [hne n hn v hv] at this
      simpa using this
    rw [hnt, List.findSome?_cons, hv]
    simp only [Option.some_or, Option.getD_some]
    cases v with
    | str s => cases hop
    | _ => rfl

theorem get?_start (h : SpecNodes layers) (p : Str) : get? p (start layers).lite.nodes =
    if stack layers p = [] then none else some (liteNode (Comp.compNode p (stack layers p))) := by
  unfold start
  simp only [get?_mapNode, Comp.get?_compPre layers h.ok p]
  split <;> rfl

theorem nodesOf_start (h : SpecNodes layers) (ns : List Str) : nodesOf (start layers).lite ns = instPathOf layers ns := by
  unfold nodesOf instPathOf
  rw [get?_start h]
  split
  · rfl
  · rename_i hs
    rw [Option.map_some]
    have := inst_compNode h hs
    show some (textOf ((Comp.compNode (render ns) (stack layers (render ns))).attr A_INSTANCE)) = _
    rw [this]
    generalize (strongest (stack layers (render ns)) "_instance".toList).bind (get? "_instance".toList) = o
    cases o with
    | none => rfl
    | some v => cases v <;> rfl

theorem ok_compPre (h : SpecNodes layers) : Dict.Ok (Comp.compPre layers) := by
  have : keys (Comp.compPre layers) = keys (Comp.baseMapping layers) := by
    unfold Comp.compPre keys; rw [List.map_map]; rfl
  unfold Dict.Ok
  rw [this]
  exact (Comp.baseMapping_spec layers h.ok).1

theorem keys_start : keys (start layers).lite.nodes = keys (Comp.compPre layers) := by
  unfold start keys
  simp only [List.map_map]
  rfl

theorem start_start (h : SpecNodes layers) (hw : ∀ i, instPathOf layers [] = some (some i) → i = []) : Start (start layers).lite where
  ok := by unfold Dict.Ok; rw [keys_start]; exact ok_compPre h
  path := by
    intro q hq
    obtain ⟨n, hn⟩ := Option.isSome_iff_exists.1 (get?_isSome.2 hq)
    rw [get?_start h] at hn
    split at hn
    · cases hn
    · rename_i hs
      obtain ⟨m, t, hmt⟩ := List.exists_cons_of_ne_nil hs
      obtain ⟨l, hl, hm⟩ := Props.mem_stack (n := m) (p := q) (layers := layers) (by rw [hmt]; simp)
      exact h.path l hl q m hm
  world := by intro i; rw [nodesOf_start h]; exact hw i
  dirty := rfl

theorem kept_start (h : SpecNodes layers) (hn : Named layers) : Kept (instPathOf layers) layers (start layers) where
  keys := keys_start.symm
  there := by
    intro p hp
    rw [← get?_isSome]
    have := Comp.get?_compPre layers h.ok p
    rw [if_neg hp] at this
    show (get? p (Comp.compPre layers)).isSome
    rw [this]
    rfl
  tab := by
    intro p n hg
    have hg : get? p (Comp.compPre layers) = some n := hg
    rw [Comp.get?_compPre layers h.ok p] at hg
    split at hg
    · cases hg
    · rename_i hs
      have hg := Option.some.inj hg
      subst hg
      obtain ⟨m, t, hmt⟩ := List.exists_cons_of_ne_nil hs
      obtain ⟨l, hl, hm⟩ := Props.mem_stack (n := m) (p := p) (layers := layers) (by rw [hmt]; simp)
      refine ⟨?_, ?_, ?_, fun _ => ⟨rfl, fun _ _ => rfl⟩, fun h0 => absurd h0 hs⟩
      · unfold Proxies.instOf
        rw [get?_start h, if_neg hs]
        rfl
      · unfold firstTable
        rw [List.findSome?_isSome_iff]
        exact ⟨m, List.mem_cons_of_mem _ (by show m ∈ stack layers p; rw [hmt]; simp), h.keys l hl p m hm _ (by decide +kernel)⟩
      · obtain ⟨s, hs'⟩ := hn l hl p m hm
        refine ⟨s, ?_⟩
        have hown : get? A_NAME (Comp.compNode p (stack layers p)).own = some (.str s) := by
          unfold Comp.compNode
          simp only
          rw [get?_set, if_neg (by decide +kernel)]
          have : ∀ (bs : List (Dict Str Val)) (st : Dict Str Val × List Str), get? A_NAME st.1 = some (.str s) →
              get? A_NAME (bs.foldl (Comp.overloadBase p) st).1 = some (.str s) := by
            intro bs
            induction bs with
            | nil => intro st h; exact h
            | cons m ms ih =>
              intro st h
              rw [List.foldl_cons]
              apply ih
              show get? A_NAME (Comp.OVERLOAD.foldl (Comp.overloadAttr p m) st.1) = some (.str s)
              rw [(Comp.get?_overloadAttrs p m st.1 Comp.OVERLOAD (fun _ h => h) A_NAME).2.2 (by decide +kernel) (by decide +kernel), h]
          apply this
          rw [hmt]
          show get? A_NAME [(A_NAME, getAttr m A_NAME)] = _
          rw [show getAttr m A_NAME = .str s from getAttr_of_get? hs']
          rfl
        unfold Comp.CompNode.attr
        rw [hown]
        rfl

/-- The composite layer after `comp_proxies`. -/
theorem kept_compProxies (h : SpecNodes layers) (hn : Named layers) (hw : ∀ i, instPathOf layers [] = some (some i) → i = [])
    (same : Str → Str → Bool) {kids : List Str → Str → List Str} (hk : GivesKids kids) (real : Option Str) {fuel : Nat} {B : BSt}
    (hB : compProxies same kids real fuel (start layers) = some B) : Kept (instPathOf layers) layers B := by
  have hS := start_start h hw
  have hN : nodesOf (start layers).lite = instPathOf layers := funext (nodesOf_start h)
  have hg := Proxies.good_start hS
  have hi := Proxies.impOk_start (start layers).lite
  rw [hN] at hg hi
  unfold compProxies at hB
  rw [Option.map_eq_some_iff] at hB
  obtain ⟨⟨T, imp⟩, h1, rfl⟩ := hB
  have hkept := kept_proxyLoop same hk real fuel (start layers, []) T imp hg hi (kept_start h hn) h1
  have hlite := lite_proxyLoop same kids real fuel (start layers, [])
  rw [h1] at hlite
  obtain ⟨g1, g2, -⟩ := Proxies.proxyLoop_spec same hk fuel ((start layers).lite, []) T.lite imp hg hi hlite.symm
  refine kept_eraseFold imp (fun p hp => ?_) T hkept g1.ok
  obtain ⟨p', rfl, -, h3⟩ := g2.new p hp
  unfold instPathOf at h3
  split at h3
  · assumption
  · split at h3 <;> cases h3

/-- A node with a source: `ns` is an instance of `s` or a copy of it below an instance. -/
def Copies (N : List Str → Option (Option Str)) (ns s : List Str) : Prop :=
  ∃ q r t, ns = q ++ t ∧ s = r ++ t ∧ InstOf N q r ∧ Names t ∧ N s ≠ none

/-- The composite layer after the proxies of separate instances are made. -/
structure Done (N : List Str → Option (Option Str)) (R : Proxies.St) : Prop where
  ok : Dict.Ok R.nodes
  path : ∀ q ∈ Dict.keys R.nodes, ∃ p, Names p ∧ q = render p
  nodes : ∀ p, Names p → (render p ∈ Dict.keys R.nodes ↔ N p ≠ none ∨ ∃ s, Copies N p s)
  inst : ∀ ns s, Copies N ns s → Proxies.instOf R (render ns) = some (render s)
  other : ∀ ns, Names ns → (¬ ∃ s, Copies N ns s) → ∀ i, Proxies.instOf R (render ns) = some i → i ∉ Dict.keys R.nodes
  world : ∀ i, Proxies.instOf R (render []) = some i → i = []

theorem nodesOf_ne {R : Proxies.St} {p : List Str} : nodesOf R p ≠ none ↔ render p ∈ keys R.nodes := by
  rw [ne_eq, Proxies.nodesOf_none]
  exact ⟨fun h => Classical.byContradiction h, fun h h' => h' h⟩

theorem done_spec {S : Proxies.St} (hs : Start S) (C : Separate (nodesOf S)) (same : Str → Str → Bool)
    {kids : List Str → Str → List Str} (hk : GivesKids kids) :
    ∃ n, ∀ fuel ≥ n, ∃ R, Proxies.compProxies same kids fuel S = some R ∧ Done (nodesOf S) R := by
  obtain ⟨n, hn⟩ := Props.C80_plain same kids hk S hs C
  refine ⟨n, fun fuel hf => ?_⟩
  obtain ⟨R, hR, p1, p2⟩ := hn fuel hf
  refine ⟨R, hR, ?_⟩
  obtain ⟨s1, -, s3⟩ := Props.C79_sound same kids hk fuel S R hs hR
  unfold Proxies.compProxies at hR
  rw [Option.map_eq_some_iff] at hR
  obtain ⟨⟨T, imp⟩, h1, h2⟩ := hR
  obtain ⟨g1, g2, -⟩ := Proxies.proxyLoop_spec same hk fuel (S, []) T imp (Proxies.good_start hs) (Proxies.impOk_start S) h1
  obtain ⟨e1, e2⟩ := Proxies.eraseFold imp T g1.ok
  simp only at h2
  rw [h2] at e1 e2
  have hheld := Proxies.held_proxyLoop same hk C hs.world fuel (S, []) T imp (Proxies.good_start hs) (Proxies.impOk_start S)
    Proxies.held_start h1
  have hinst : ∀ q, q ∈ keys R.nodes → Proxies.instOf R q = Proxies.instOf T q := by
    intro q hq
    unfold Proxies.instOf
    rw [← get?_isSome, e2] at hq
    rw [e2]
    split at hq
    · cases hq
    · rename_i h; rw [if_neg h]
  have hmem : ∀ q, Proxies.instOf R q ≠ none → q ∈ keys R.nodes := by
    intro q hq
    refine Classical.byContradiction (fun h => hq ?_)
    unfold Proxies.instOf
    rw [get?_eq_none.2 h]
    rfl
  have hown : ∀ q r, InstOf (nodesOf S) q r → Proxies.instOf R (render q) = some (render r) := by
    intro q r hi
    rw [hinst _ (nodesOf_ne.1 (s3 q hi.1 hi.there)), hheld q r hi]
  have hnodes : ∀ p, Names p → (render p ∈ Dict.keys R.nodes ↔ nodesOf S p ≠ none ∨ ∃ s, Copies (nodesOf S) p s) := by
    intro p hp
    rw [← nodesOf_ne, p1 p hp]
    constructor
    · rintro (h | ⟨q, r, t, -, rfl, h2, h3⟩)
      · exact .inl h
      · exact .inr ⟨_, q, r, t, rfl, rfl, h2, (names_append.1 hp).2, h3⟩
    · rintro (h | ⟨s, q, r, t, rfl, rfl, h2, h3, h4⟩)
      · exact .inl h
      · by_cases ht : t = []
        · subst ht
          rw [List.append_nil]
          exact .inl h2.there
        · exact .inr ⟨q, r, t, ht, rfl, h2, h4⟩
  refine ⟨e1, fun q hq => ?_, hnodes, ?_, ?_, fun i hi => ?_⟩
  · obtain ⟨p, h3, h4⟩ := s1 q hq
    exact ⟨p, h4.names, h3⟩
  · rintro ns s ⟨q, r, t, rfl, rfl, hi, ht, hN⟩
    by_cases h0 : t = []
    · subst h0
      rw [List.append_nil, List.append_nil]
      exact hown q r hi
    · have := p2 q r t h0 hi ht hN
      unfold nodesOf at this
      unfold Proxies.instOf
      rw [Option.map_eq_some_iff] at this
      obtain ⟨m, h3, h4⟩ := this
      rw [h3, Option.bind_some, h4]
  · intro ns hN hno i hi
    have hkey := hmem _ (by rw [hi]; simp)
    have hnoinst : ∀ r, InstOf (nodesOf S) ns r → i ∉ Dict.keys R.nodes := by
      intro r hr hin
      have hrn : Names r := by obtain ⟨-, j, -, hr⟩ := hr; exact hr.2.1
      have hrN : nodesOf S r = none := Classical.byContradiction (fun h =>
        hno ⟨r, ns, r, [], by simp, by simp, hr, names_nil, h⟩)
      rw [hown ns r hr] at hi
      rw [← Option.some.inj hi, hnodes r hrn] at hin
      rcases hin with h | ⟨s, q', r', t', rfl, -, hi', -⟩
      · exact h hrN
      · exact (C.apart ns _ q' r' hr hi').1 ⟨t', rfl⟩
    have hT := hinst _ hkey
    rw [hi] at hT
    rcases g1.origin ns i hN hT.symm with rfl | hno'
    · intro hin
      obtain ⟨p, h3, -⟩ := s1 _ hin
      have := Proxies.head_render p
      rw [← h3] at this
      cases this
    · unfold NoInst at hno'
      by_cases hall : ∀ r, ¬ Made (nodesOf S) (.inst ns r)
      · have : ∃ j, nodesOf S ns = some (some j) ∧ j ≠ [] := by
          refine Classical.byContradiction (fun h => hno' ⟨fun j hj => Classical.byContradiction (fun hne => h ⟨j, hj, hne⟩), hall⟩)
        obtain ⟨j, hj, hne⟩ := this
        rcases C.means ns j hN hj with h | ⟨r, hr⟩
        · exact absurd h hne
        · exact hnoinst r ⟨hN, j, hj, hr⟩
      · obtain ⟨r, hr⟩ := Classical.not_forall.1 hall
        obtain ⟨q, r0, t, ht, rfl, rfl, hi', hmore⟩ := Props.sep_made_more C (Classical.not_not.1 hr)
        by_cases h0 : t = []
        · subst h0
          rw [List.append_nil] at hnoinst
          exact hnoinst r0 hi'
        · rcases (hnodes _ hN).1 hkey with h | h
          · obtain ⟨j, hj⟩ := Option.ne_none_iff_exists'.1 h
            obtain ⟨more, hmn, hm⟩ := hmore.resolve_left h0
            exfalso
            cases more with
            | nil => exact hno ⟨r0 ++ t, q, r0, t, rfl, rfl, hi', ht, by simpa using hm⟩
            | cons x rest => exact hm ((C.own q r0 t j hi' h0 ht hj).2 x rest hmn)
          · exact absurd h hno
  · exact g1.world i (by rw [← hinst _ (hmem _ (by rw [hi]; simp)), hi])

variable {N : List Str → Option (Option Str)}

open Classical in
/-- The source of a node. -/
noncomputable def srcOf (N : List Str → Option (Option Str)) (ns : List Str) : Option (List Str) :=
  if h : ∃ s, Copies N ns s then some h.choose else none

theorem Copies.one (C : Separate N) {ns s s' : List Str} (h : Copies N ns s) (h' : Copies N ns s') : s = s' := by
  obtain ⟨q, r, t, rfl, rfl, hi, -, -⟩ := h
  obtain ⟨q', r', t', e, rfl, hi', -, -⟩ := h'
  obtain ⟨-, rfl, rfl⟩ := Props.Separate.same C hi hi' e
  rfl

theorem srcOf_some (C : Separate N) {ns s : List Str} : srcOf N ns = some s ↔ Copies N ns s := by
  unfold srcOf
  split
  · rename_i h
    constructor
    · intro e
      rw [← Option.some.inj e]
      exact h.choose_spec
    · intro hs
      rw [Copies.one C h.choose_spec hs]
  · rename_i h
    exact ⟨(fun e => nomatch e), fun hs => absurd ⟨s, hs⟩ h⟩

theorem srcOf_none {ns : List Str} : srcOf N ns = none ↔ ¬ ∃ s, Copies N ns s := by
  unfold srcOf
  split
  · rename_i h; simp [h]
  · rename_i h; simp [h]

theorem Copies.names {ns s : List Str} (h : Copies N ns s) : Names s ∧ s ≠ [] ∧ Names ns := by
  obtain ⟨q, r, t, rfl, rfl, ⟨h0, i, -, h1, h2, -⟩, ht, -⟩ := h
  exact ⟨names_append.2 ⟨h2, ht⟩, by simp [h1], names_append.2 ⟨h0, ht⟩⟩

theorem sources (C : Separate N) {R : Proxies.St} (hd : Done N R) {nodes : Dict Str Nat} (hn : keys nodes = keys R.nodes) :
    Inherit.Sources nodes (srcOf N) where
  node := by
    intro ns s h
    rw [srcOf_some C] at h
    obtain ⟨h1, -, -⟩ := h.names
    refine ⟨h1, ?_⟩
    obtain ⟨q, r, t, rfl, rfl, -, -, h2⟩ := h
    have : render (r ++ t) ∈ keys nodes := by rw [hn]; exact (hd.nodes _ h1).2 (.inl h2)
    obtain ⟨b, hb⟩ := Option.isSome_iff_exists.1 (get?_isSome.2 this)
    exact ⟨b, mem_of_get? hb⟩
  plain := by
    rintro ns s m h ⟨u, e⟩
    rw [srcOf_some C] at h
    rw [srcOf_none]
    rintro ⟨s', q', r', t', rfl, rfl, hi', -, -⟩
    obtain ⟨q, r, t, rfl, rfl, hi, -, -⟩ := h
    obtain ⟨h1, h2⟩ := C.apart q r q' r' hi hi'
    rw [List.append_assoc] at e
    rcases Props.comparable e with h | h
    · exact h1 h
    · exact h2 h
  real := by
    intro ns s h
    rw [srcOf_some C] at h
    have := (hd.nodes ns h.names.2.2).2 (.inr ⟨s, h⟩)
    rw [← hn] at this
    exact fun hg => get?_eq_none.1 hg this
  apart := by
    rintro ns s m s' h ⟨v, rfl⟩ h' ⟨u, e⟩
    rw [srcOf_some C] at h h'
    obtain ⟨q, r, t, e1, rfl, hi, -, -⟩ := h
    obtain ⟨q', r', t', rfl, rfl, hi', -, -⟩ := h'
    obtain ⟨h1, h2⟩ := C.apart q r q' r' hi hi'
    rw [List.append_assoc] at e
    rcases Props.comparable e with h | h
    · exact h1 h
    · exact h2 h
  below := by
    rintro ns s m s' h ⟨u, e⟩ h'
    rw [srcOf_some C] at h h'
    obtain ⟨q, r, t, rfl, rfl, hi, -, -⟩ := h
    obtain ⟨q', r', t', rfl, rfl, hi', -, -⟩ := h'
    rw [List.append_assoc] at e
    obtain ⟨rfl, rfl, rfl⟩ := Props.Separate.same C hi' hi e
    obtain ⟨h1, h2⟩ := C.apart q' r' q' r' hi hi
    refine ⟨⟨u, by simp⟩, ?_⟩
    rintro x hx1 hx2
    rcases List.prefix_or_prefix_of_prefix hx1 (List.prefix_append q' t') with h | h
    · rcases List.prefix_or_prefix_of_prefix hx2 (List.prefix_append r' (t' ++ u)) with h3 | h3
      · exact h3.trans (List.prefix_append _ _)
      · exact absurd (h3.trans h) h2
    · rcases List.prefix_or_prefix_of_prefix (h.trans hx2) (List.prefix_append r' (t' ++ u)) with h3 | h3
      · exact absurd h3 h1
      · exact absurd h3 h2

/-- The classes of the composite layer. -/
structure Classed (N : List Str → Option (Option Str)) (layers : List Comp.LayerNodes) (B : BSt) (g : Mro.Classes)
    (nodes : Dict Str Nat) : Prop where
  laid : Laid g nodes g.bases (fun _ => [])
  node : g.own 0 = NODE_CLASS
  keys : Dict.keys nodes = Dict.keys B.lite.nodes
  tables : ∀ p c, (p, c) ∈ nodes → ∃ n, TabOk N layers p (Proxies.instOf B.lite p) n ∧ tablesOf g g.bases c = n.own :: n.bases

theorem classed (hwf : SpecNodes layers) {B : BSt} (h : Kept N layers B) (hok : Dict.Ok B.lite.nodes) :
    Classed N layers B (classes B).1 (classes B).2 := by
  have hokt : Dict.Ok B.tab := by unfold Dict.Ok; rw [h.keys]; exact hok
  have hB := Inherit.build_built (B.tab.map (fun e => (e.1, e.2.own, e.2.bases)))
    (by rw [List.map_map]; exact hokt)
    (by
      intro n hn
      obtain ⟨e, he, rfl⟩ := List.mem_map.1 hn
      have ht := h.tab e.1 e.2 (get?_of_mem hokt he)
      by_cases hs : stack layers e.1 = []
      · obtain ⟨s, c, e', h1, -⟩ := ht.made hs
        show e.2.bases ≠ []
        rw [h1]
        simp
      · show e.2.bases ≠ []
        rw [(ht.real hs).1]
        exact hs)
  change Inherit.Built _ (classes B).1 (classes B).2 at hB
  refine ⟨hB.laid, hB.node, ?_, ?_⟩
  · rw [hB.keys, List.map_map, ← h.keys]
    rfl
  · intro p c hc
    have hk : p ∈ Dict.keys (classes B).2 := mem_keys_of_mem hc
    rw [hB.keys, List.map_map] at hk
    obtain ⟨e, he, rfl⟩ := List.mem_map.1 hk
    obtain ⟨c', h1, h2⟩ := hB.tables _ (List.mem_map_of_mem he)
    have e1 : c' = c := Option.some.inj ((get?_of_mem hB.laid.ok h1).symm.trans (get?_of_mem hB.laid.ok hc))
    subst e1
    exact ⟨e.2, h.tab e.1 e.2 (get?_of_mem hokt he), h2⟩

theorem firstTable_attr {n : Comp.CompNode} {a : Str} (h : (firstTable a (n.own :: n.bases)).isSome) :
    firstTable a (n.own :: n.bases) = some (n.attr a) := by
  unfold firstTable at h ⊢
  unfold Comp.CompNode.attr
  rw [List.findSome?_cons] at h ⊢
  cases hg : get? a n.own with
  | some v => rfl
  | none =>
    rw [hg] at h
    simp only at h ⊢
    obtain ⟨v, hv⟩ := Option.isSome_iff_exists.1 h
    rw [hv]
    rfl

/-- The source of the class of a node. -/
theorem instSource_srcOf (C : Separate N) {B : BSt} (hd : Done N B.lite) {g : Mro.Classes} {nodes : Dict Str Nat}
    (hc : Classed N layers B g nodes) (ns : List Str) (c : Nat) (hN : Names ns) (hm : (render ns, c) ∈ nodes) :
    instSource g nodes g.bases c = (srcOf N ns).bind (fun s => get? (render s) nodes) := by
  obtain ⟨n, ht, htab⟩ := hc.tables _ c hm
  unfold instSource
  rw [htab, show "_instance".toList = A_INSTANCE from rfl, firstTable_attr ht.has]
  have hi := ht.inst
  cases hs : srcOf N ns with
  | some s =>
    rw [srcOf_some C] at hs
    rw [hd.inst ns s hs] at hi
    have : n.attr A_INSTANCE = .str (render s) := by
      unfold textOf at hi
      split at hi
      · rename_i s' he; rw [he, Option.some.inj hi]
      · cases hi
    rw [this]
    simp only [Option.bind_some]
    obtain ⟨h1, h2, -⟩ := hs.names
    exact if_neg (fun h => h2 ((render_eq_world h1).1 h))
  | none =>
    rw [srcOf_none] at hs
    rw [Option.bind_none]
    split
    · rename_i ip he
      have he := Option.some.inj he
      rw [he] at hi
      have := hd.other ns hN hs ip hi.symm
      rw [← hc.keys] at this
      split
      · rfl
      · exact get?_eq_none.2 this
    · rfl

theorem theirs_untouched {k : Str} (h : Theirs k) : Untouched k := by
  intro a ha
  have : ∀ a ∈ ["_enabled".toList, "_comment".toList, "_code".toList], a ∈ internalNames := by decide +kernel
  refine ⟨?_, h.2 a (this a ha)⟩
  rintro rfl
  exact h.1 (this _ ha)

/-- The own table of a node says nothing of an attribute of the user. -/
theorem user_own {p : Str} {i : Option Str} {n : Comp.CompNode} (ht : TabOk N layers p i n) {k : Str} (hk : Theirs k) :
    get? k n.own = none := by
  have hint : k ∉ internalNames := hk.1
  have hE : k ∉ EDITED := by
    unfold EDITED
    simp only [List.mem_cons, List.not_mem_nil, or_false, not_or]
    refine ⟨?_, hk.2 A_INSTANCE (by decide +kernel), ?_⟩
    · rintro rfl; exact hint (by decide +kernel)
    · rintro rfl; exact hint (by decide +kernel)
  by_cases hs : stack layers p = []
  · obtain ⟨s, c, e, h1, h2, h3, -⟩ := ht.made hs
    exact h3 k hE (by rintro rfl; exact hint (by decide +kernel))
  · obtain ⟨h1, h2⟩ := ht.real hs
    have hov : ∀ x ∈ Comp.OVERLOAD, x ∈ internalNames := by decide +kernel
    rw [h2 k hE, Props.own_other]
    · exact fun hm => hint (hov k hm)
    · exact fun x hx => hk.2 x (hov x hx)
    · rintro rfl; exact hint (by decide +kernel)
    · rintro rfl; exact hint (by decide +kernel)

/-- What the tables of a node say of an attribute of the user. -/
theorem user_tables {p : Str} {i : Option Str} {n : Comp.CompNode} (ht : TabOk N layers p i n) {k : Str}
    (hk : Theirs k) : firstTable k (n.own :: n.bases) = (stack layers p).findSome? (get? k) := by
  unfold firstTable
  rw [List.findSome?_cons, user_own ht hk]
  by_cases hs : stack layers p = []
  · obtain ⟨s, c, e, h1, h2, -⟩ := ht.made hs
    rw [h1, hs]
    simp [h2.user k hk]
  · rw [(ht.real hs).1]

theorem parent_tables (hwf : SpecNodes layers) (hw : ∀ i, N [] = some (some i) → i = []) {ns : List Str} (hN : Names ns)
    {i : Option Str} {n : Comp.CompNode} (ht : TabOk N layers (render ns) i n) :
    firstTable A_PARENT (n.own :: n.bases) = some (.str (parentText ns)) := by
  unfold firstTable
  rw [List.findSome?_cons]
  by_cases hs : stack layers (render ns) = []
  · obtain ⟨s, c, e, h1, h2, h3, ns', a, h4, h5, -⟩ := ht.made hs
    have hn' := render_inj hN h5.inst_names.1 h4
    subst hn'
    rw [h3 A_PARENT (by decide +kernel) (by decide +kernel), h1]
    simp only [List.findSome?_cons, h2.parent]
    rcases eq_nil_or_snoc ns with rfl | ⟨m, x, rfl⟩
    · exact absurd rfl (h5.ne_world hw a)
    · rw [parentPath_render_snoc hN]
      unfold parentText
      rw [if_neg (by simp), List.dropLast_concat]
  · obtain ⟨h1, h2⟩ := ht.real hs
    rw [h2 _ (by decide +kernel), h1, Props.own_other _ _ (by decide +kernel) (by decide +kernel) (by decide +kernel) (by decide +kernel)]
    obtain ⟨m, t, hmt⟩ := List.exists_cons_of_ne_nil hs
    obtain ⟨l, hl, hm⟩ := Props.mem_stack (n := m) (p := render ns) (layers := layers) (by rw [hmt]; simp)
    simp only
    rw [hmt, List.findSome?_cons]
    have := hwf.parent l hl ns m hN hm
    rw [show A_PARENT = "_parent_path".toList from rfl, this]

end Nxt.Build
