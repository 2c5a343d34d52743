import Verif.Lemmas.Build
import Verif.Props.InheritLayers
import Verif.Spec.Build
/-!
# The attribute tables while proxies are made
-/
namespace Nxt.Build
open Dict NodeData Spec Path

theorem proxySpec_eq (s : Comp.CompNode) (parent name : Str) (h : s.attr A_NAME = .str name) (hp : parent ≠ []) :
    proxySpec s parent = TRACKED.foldl (fun at' a => set (a ++ M_SOURCE) (.src (textOf (s.attr A_SOURCE_LAYER))
        (joinNodePath parent name)) at')
      (set A_PARENT (.str parent) (set A_SOURCE_LAYER (layerVal (textOf (s.attr A_SOURCE_LAYER)))
        (set A_CHILD_ORDER (.list []) (set A_PROXY (.bool true) (set A_NAME (.str name)
          (loadInternals (proxyData s parent) [])))))) := by
  unfold proxySpec createSpecNode
  have h1 : nameData (proxyData s parent) = some name := by
    unfold nameData
    have : get? "name".toList (proxyData s parent) = some (s.attr A_NAME) := by rfl
    rw [this, h]
  have h2 : userData (proxyData s parent) = some [] := by
    unfold userData
    have : get? Layer.ATTRS (proxyData s parent) = none := by rfl
    rw [this]
  have h3 : orderData (proxyData s parent) = some [] := by
    unfold orderData
    have : get? "child_order".toList (proxyData s parent) = none := by rfl
    rw [this]
  have h4 : get? "parent_path".toList (proxyData s parent) = some (.str parent) := by rfl
  have h5 : (Val.str parent).truthy = true := by
    cases parent with
    | nil => exact absurd rfl hp
    | cons _ _ => rfl
  simp only [h1, h2, h3, h4, Option.bind_eq_bind, Option.bind_some, loadAttrs, h5, if_true, Option.pure_def, Option.getD_some,
    dedup, List.map_nil]

theorem get?_trackedSources (v : Val) (d : Dict Str Val) (k : Str) :
    (∀ a ∈ TRACKED, k ≠ a ++ M_SOURCE) →
    get? k (TRACKED.foldl (fun at' a => set (a ++ M_SOURCE) v at') d) = get? k d := by
  intro h
  have : ∀ (l : List Str) (d : Dict Str Val), (∀ a ∈ l, k ≠ a ++ M_SOURCE) →
      get? k (l.foldl (fun at' a => set (a ++ M_SOURCE) v at') d) = get? k d := by
    intro l
    induction l with
    | nil => intro d _; rfl
    | cons a l ih =>
      intro d hl
      rw [List.foldl_cons, ih _ (fun a ha => hl a (List.mem_cons_of_mem _ ha)), get?_set, if_neg (hl a List.mem_cons_self)]
  exact this TRACKED d h

/-- Keys which composing leaves to the user: neither internal nor the source of an internal attribute. -/
def Theirs (k : Str) : Prop := k ∉ internalNames ∧ ∀ a ∈ internalNames, k ≠ a ++ M_SOURCE

theorem theirs_user {b : List Str} {k : Str} (h : UserName b k) : Theirs k :=
  ⟨h.2.1, fun a _ => h.2.2 "source".toList (by decide +kernel) a⟩

/-- The further attributes of a user attribute are the user's too. -/
theorem theirs_meta {b : List Str} {k : Str} (h : UserName b k) {m : Str} (hm : m ∈ METAS) : Theirs (k ++ m) := by
  have hlen : ∀ m ∈ METAS, m.drop (m.length - 5) = "__nxt".toList ∧ 5 ≤ m.length := by decide +kernel
  refine ⟨fun hi => ?_, fun a ha e => ?_⟩
  · have h1 : ∀ a ∈ internalNames, a.drop (a.length - 5) ≠ "__nxt".toList := by decide +kernel
    refine h1 _ hi ?_
    obtain ⟨h2, h3⟩ := hlen m hm
    rw [List.length_append, show k.length + m.length - 5 = k.length + (m.length - 5) by omega, List.drop_append,
      List.drop_eq_nil_of_le (by omega)]
    simpa using h2
  · have h1 : ∀ m ∈ METAS, m ≠ M_SOURCE → ∀ a ∈ internalNames, (a ++ M_SOURCE).drop ((a ++ M_SOURCE).length - m.length) ≠ m := by
      decide +kernel
    by_cases hms : m = M_SOURCE
    · subst hms
      exact h.2.1 ((List.append_cancel_right e) ▸ ha)
    · refine h1 m hm hms a ha ?_
      rw [← e]
      simp

/-- The attributes of the spec node of a proxy. -/
structure ProxySpec (parent : Str) (comment enabled : Val) (d : Dict Str Val) : Prop where
  parent : get? A_PARENT d = some (.str parent)
  name : ∃ x, get? A_NAME d = some (.str x)
  inst : get? A_INSTANCE d = some .none
  code : get? A_CODE d = some (.list [])
  comment : get? A_COMMENT d = some (if comment.hasOpinion then comment else .none)
  enabled : get? A_ENABLED d = some enabled
  user : ∀ k, Theirs k → get? k d = none

theorem proxySpec_spec (s : Comp.CompNode) (parent name : Str) (h : s.attr A_NAME = .str name) (hp : parent ≠ []) :
    ProxySpec parent (s.attr A_COMMENT) (s.attr A_ENABLED) (proxySpec s parent) := by
  rw [proxySpec_eq s parent name h hp]
  have hload : ∀ k, get? k (loadInternals (proxyData s parent) []) =
      if k ∈ ALL then some (internalValue (proxyData s parent) k) else none := by
    intro k
    unfold loadInternals
    rw [get?_foldl_set]
    by_cases h : k ∈ ALL
    · rw [if_pos h, if_pos h]
    · rw [if_neg h, if_neg h]; rfl
  refine ⟨?_, ⟨name, ?_⟩, ?_, ?_, ?_, ?_, ?_⟩
  · rw [get?_trackedSources _ _ _ (by decide +kernel), get?_set, if_pos rfl]
  · rw [get?_trackedSources _ _ _ (by decide +kernel)]
    simp only [get?_set]
    rw [if_neg (by decide +kernel), if_neg (by decide +kernel), if_neg (by decide +kernel), if_neg (by decide +kernel), if_pos trivial]
  · rw [get?_trackedSources _ _ _ (by decide +kernel)]
    simp only [get?_set]
    rw [if_neg (by decide +kernel), if_neg (by decide +kernel), if_neg (by decide +kernel), if_neg (by decide +kernel),
      if_neg (by decide +kernel), hload, if_pos (by decide +kernel)]
    rfl
  · rw [get?_trackedSources _ _ _ (by decide +kernel)]
    simp only [get?_set]
    rw [if_neg (by decide +kernel), if_neg (by decide +kernel), if_neg (by decide +kernel), if_neg (by decide +kernel),
      if_neg (by decide +kernel), hload, if_pos (by decide +kernel)]
    rfl
  · rw [get?_trackedSources _ _ _ (by decide +kernel)]
    simp only [get?_set]
    rw [if_neg (by decide +kernel), if_neg (by decide +kernel), if_neg (by decide +kernel), if_neg (by decide +kernel),
      if_neg (by decide +kernel), hload, if_pos (by decide +kernel)]
    unfold internalValue
    have e : get? (saveKey A_COMMENT) (proxyData s parent) = some (s.attr A_COMMENT) := by rfl
    rw [e]
    simp only [Option.getD_some]
    have e2 : decide (A_COMMENT ≠ A_ENABLED) = true := by decide +kernel
    have e3 : internalDefault A_COMMENT = .none := by rfl
    cases (s.attr A_COMMENT).hasOpinion <;> simp [e2, e3]
  · rw [get?_trackedSources _ _ _ (by decide +kernel)]
    simp only [get?_set]
    rw [if_neg (by decide +kernel), if_neg (by decide +kernel), if_neg (by decide +kernel), if_neg (by decide +kernel),
      if_neg (by decide +kernel), hload, if_pos (by decide +kernel)]
    unfold internalValue
    have e : get? (saveKey A_ENABLED) (proxyData s parent) = some (s.attr A_ENABLED) := by rfl
    rw [e]
    simp
  · intro k hk
    have hi := hk.1
    have hin : ∀ a ∈ ALL, a ∈ internalNames := by decide +kernel
    have hka : k ∉ ALL := fun h => hi (hin k h)
    rw [get?_trackedSources _ _ _ (fun a ha => hk.2 a (by
      have : ∀ a ∈ TRACKED, a ∈ internalNames := by decide +kernel
      exact this a ha))]
    simp only [get?_set]
    have hm : ∀ a ∈ ALL, k ≠ a := by rintro a ha rfl; exact hka ha
    rw [if_neg (hm _ (by decide +kernel)), if_neg (hm _ (by decide +kernel)), if_neg (hm _ (by decide +kernel)),
      if_neg (hm _ (by decide +kernel)), if_neg (hm _ (by decide +kernel)), hload, if_neg hka]

/-! ### The tables of the nodes -/

/-- The keys which are written on a node while proxies are made. -/
def EDITED : List Str := [A_INSTANCE, A_INSTANCE ++ M_SOURCE, A_CHILD_ORDER]

/-- A node and the instance path it is read with. -/
structure TabOk (N : List Str → Option (Option Str)) (layers : List Comp.LayerNodes) (p : Str) (inst : Option Str)
    (n : Comp.CompNode) : Prop where
  inst : textOf (n.attr A_INSTANCE) = inst
  has : (firstTable A_INSTANCE (n.own :: n.bases)).isSome
  name : ∃ x, n.attr A_NAME = .str x
  real : stack layers p ≠ [] → n.bases = stack layers p ∧
    ∀ k, k ∉ EDITED → get? k n.own = get? k (Comp.compNode p (stack layers p)).own
  made : stack layers p = [] → ∃ s c e, n.bases = [s] ∧ ProxySpec (parentPath p) c e s ∧
    (∀ k, k ∉ EDITED → k ≠ A_SOURCE_LAYER → get? k n.own = none) ∧
    ∃ ns a, p = render ns ∧ Made N (.inst ns a) ∧ (stack layers (render a) ≠ [] →
      c = (Comp.compNode (render a) (stack layers (render a))).attr A_COMMENT ∧
      e = (Comp.compNode (render a) (stack layers (render a))).attr A_ENABLED)

structure Kept (N : List Str → Option (Option Str)) (layers : List Comp.LayerNodes) (B : BSt) : Prop where
  keys : keys B.tab = keys B.lite.nodes
  tab : ∀ p n, get? p B.tab = some n → TabOk N layers p (Proxies.instOf B.lite p) n
  there : ∀ p, stack layers p ≠ [] → p ∈ Dict.keys B.tab

variable {N : List Str → Option (Option Str)} {layers : List Comp.LayerNodes}

theorem get?_edit (p : Str) (f : Dict Str Val → Dict Str Val) (tab : Dict Str Comp.CompNode) (q : Str) :
    get? q (edit p f tab) = if q = p then (get? p tab).map (fun n => { n with own := f n.own }) else get? q tab := by
  unfold edit
  cases hg : get? p tab with
  | none =>
    by_cases h : q = p
    · subst h; simp [hg]
    · simp [h]
  | some n => simp only [get?_set]; rfl

theorem keys_edit (p : Str) (f : Dict Str Val → Dict Str Val) (tab : Dict Str Comp.CompNode) :
    keys (edit p f tab) = keys tab := by
  unfold edit
  cases hg : get? p tab with
  | none => rfl
  | some n =>
    have hk : p ∈ keys tab := get?_isSome.1 (by rw [hg]; rfl)
    simp only [keys_set, if_pos hk]

theorem attr_setOwn (n : Comp.CompNode) (k : Str) (v : Val) (k' : Str) :
    Comp.CompNode.attr { n with own := set k v n.own } k' = if k' = k then v else n.attr k' := by
  unfold Comp.CompNode.attr
  simp only [get?_set]
  split
  · simp
  · rfl

theorem kept_edit {B : BSt} (h : Kept N layers B) (p k : Str) (v : Val) (hk : k ∈ EDITED) (S : Proxies.St)
    (h1 : keys S.nodes = keys B.lite.nodes) (h2 : ∀ q, q ≠ p → Proxies.instOf S q = Proxies.instOf B.lite q)
    (h3 : p ∈ keys B.lite.nodes → k = A_INSTANCE → textOf v = Proxies.instOf S p)
    (h4 : k ≠ A_INSTANCE → Proxies.instOf S p = Proxies.instOf B.lite p) :
    Kept N layers ⟨S, edit p (set k v) B.tab⟩ where
  keys := by simp only [keys_edit, h1]; exact h.keys
  there := by intro q hq; simp only [keys_edit]; exact h.there q hq
  tab := by
    intro q n hn
    simp only [get?_edit] at hn
    by_cases hq : q = p
    · subst hq
      rw [if_pos rfl] at hn
      cases hg : get? q B.tab with
      | none => rw [hg] at hn; cases hn
      | some m =>
        rw [hg] at hn
        have hmem : q ∈ keys B.lite.nodes := by rw [← h.keys]; exact get?_isSome.1 (by rw [hg]; rfl)
        have ho := h.tab q m hg
        have hn := Option.some.inj hn
        subst hn
        have hkn : k ≠ A_NAME := by rintro rfl; revert hk; decide +kernel
        refine ⟨?_, ?_, ?_, ?_, ?_⟩
        · rw [attr_setOwn]
          by_cases hki : k = A_INSTANCE
          · rw [if_pos hki.symm]; exact h3 hmem hki
          · rw [if_neg (fun e => hki e.symm)]
            simp only [h4 hki]
            exact ho.inst
        · have := ho.has
          unfold firstTable at this ⊢
          rw [List.findSome?_cons] at this ⊢
          simp only [get?_set]
          by_cases hki : A_INSTANCE = k
          · rw [if_pos hki]; rfl
          · rw [if_neg hki]; exact this
        · obtain ⟨x, hx⟩ := ho.name
          exact ⟨x, by rw [attr_setOwn, if_neg (fun e => hkn e.symm)]; exact hx⟩
        · intro hs
          obtain ⟨r1, r2⟩ := ho.real hs
          refine ⟨r1, fun k' hk' => ?_⟩
          simp only [get?_set]
          rw [if_neg (by rintro rfl; exact hk' hk)]
          exact r2 k' hk'
        · intro hs
          obtain ⟨s, c, e, r1, r2, r3, r4⟩ := ho.made hs
          refine ⟨s, c, e, r1, r2, fun k' hk' hl => ?_, r4⟩
          simp only [get?_set]
          rw [if_neg (by rintro rfl; exact hk' hk)]
          exact r3 k' hk' hl
    · rw [if_neg hq] at hn
      rw [h2 q hq]
      exact h.tab q n hn

theorem kept_congr {B : BSt} (h : Kept N layers B) (S : Proxies.St) (h1 : keys S.nodes = keys B.lite.nodes)
    (h2 : ∀ q, Proxies.instOf S q = Proxies.instOf B.lite q) : Kept N layers { B with lite := S } where
  keys := by rw [h1]; exact h.keys
  tab := by intro p n hn; rw [h2]; exact h.tab p n hn
  there := h.there

theorem kept_setInst {B : BSt} (h : Kept N layers B) (p v : Str) : Kept N layers (setInst B p v) := by
  refine kept_edit h p A_INSTANCE (.str v) (by decide +kernel) _ (Proxies.keys_setInst _ _ _) (fun q hq => ?_)
    (fun hp _ => ?_) (fun hne => absurd rfl hne)
  · rw [Proxies.instOf_setInst, if_neg (fun hh => hq hh.1)]
  · rw [Proxies.instOf_setInst, if_pos ⟨rfl, hp⟩]; rfl

theorem kept_setOrder {B : BSt} (h : Kept N layers B) (p : Str) (o : List Str) : Kept N layers (setOrder B p o) :=
  kept_edit h p A_CHILD_ORDER _ (by decide +kernel) _ (Proxies.keys_setOrder _ _ _) (fun q _ => Proxies.instOf_setOrder _ _ _ _)
    (fun _ hne => absurd hne (by decide +kernel)) (fun _ => Proxies.instOf_setOrder _ _ _ _)

theorem kept_childFold (p : Str) (l : List Str) : ∀ acc : BSt × List (Str × Str), Kept N layers acc.1 →
    Kept N layers (l.foldl (childStep p) acc).1 := by
  induction l with
  | nil => intro acc h; exact h
  | cons c l ih =>
    intro acc h
    rw [List.foldl_cons]
    apply ih
    unfold childStep
    simp only
    split
    · split
      · exact h
      · exact kept_setInst h _ _
    · exact h

theorem kept_discover (same : Str → Str → Bool) (kids : List Str → Str → List Str) {B : BSt} (h : Kept N layers B) (p : Str) :
    Kept N layers (discover same kids B p).1 := by
  unfold discover
  cases Proxies.possible B.lite p with
  | none => exact h
  | some r =>
    simp only
    apply kept_childFold
    have h2 := kept_congr (kept_setInst h p r) { (setInst B p r).lite with dirty := Dirty.extend same (setInst B p r).lite.dirty r p } rfl
      (fun _ => rfl)
    split
    · exact kept_setOrder h2 _ _
    · exact h2

theorem kept_discoverAll (same : Str → Str → Bool) (kids : List Str → Str → List Str) {B : BSt} (h : Kept N layers B) :
    Kept N layers (discoverAll same kids B).1 := by
  unfold discoverAll
  have key : ∀ (l : List Str) (acc : BSt × List (Str × Str)), Kept N layers acc.1 →
      Kept N layers (l.foldl (fun acc p => ((discover same kids acc.1 p).1, acc.2 ++ (discover same kids acc.1 p).2)) acc).1 := by
    intro l
    induction l with
    | nil => intro acc h; exact h
    | cons p l ih => intro acc h; rw [List.foldl_cons]; exact ih _ (kept_discover same kids h p)
  exact key _ _ h

theorem kept_standIn {B : BSt} (h : Kept N layers B) (src : Str) : Kept N layers (standIn B src) := by
  unfold standIn
  split
  · exact h
  · split
    · exact h
    · split
      · exact h
      · exact kept_setOrder h _ _

theorem kept_takeOver {B : BSt} (h : Kept N layers B) (real : Option Str) (tgt src : Str) :
    Kept N layers (takeOver real B tgt src) :=
  kept_edit (kept_setInst h tgt src) tgt _ _ (by decide +kernel) _ rfl (fun _ _ => rfl)
    (fun _ hne => absurd hne (by decide +kernel)) (fun _ => rfl)

/-- The comment and the enabled state of a node of the layers are not changed while proxies are made. -/
theorem TabOk.attr_real {p : Str} {i : Option Str} {n : Comp.CompNode} (h : TabOk N layers p i n) (hs : stack layers p ≠ [])
    {k : Str} (hk : k ∉ EDITED) : n.attr k = (Comp.compNode p (stack layers p)).attr k := by
  obtain ⟨h1, h2⟩ := h.real hs
  unfold Comp.CompNode.attr
  rw [h1, h2 k hk]
  rfl

theorem sourceNode_name {B : BSt} (h : Kept N layers B) (real : Option Str) (src : Str) :
    ∃ x, (sourceNode real B src).attr A_NAME = .str x := by
  unfold sourceNode
  cases hg : get? src B.tab with
  | some n => exact (h.tab src n hg).name
  | none =>
    refine ⟨nodeName src, ?_⟩
    simp only [Comp.CompNode.attr, List.findSome?_cons, List.findSome?_nil]
    unfold createSpecNode
    have h1 : nameData [("name".toList, Val.str (nodeName src))] = some (nodeName src) := by rfl
    have h2 : userData [("name".toList, Val.str (nodeName src))] = some [] := by rfl
    have h3 : orderData [("name".toList, Val.str (nodeName src))] = some [] := by rfl
    simp only [h1, h2, h3, Option.bind_eq_bind, Option.bind_some, loadAttrs, Option.pure_def, Option.getD_some]
    rw [get?_trackedSources _ _ _ (by decide +kernel)]
    simp only [get?_set]
    rw [if_neg (by decide +kernel), if_neg (by decide +kernel), if_neg (by decide +kernel), if_neg (by decide +kernel), if_pos trivial]
    rfl

theorem kept_addProxy {B : BSt} (h : Kept N layers B) (real : Option Str) {m a : List Str} {x : Str} {src : Str} (forced : Bool)
    (hn : Names (m ++ [x])) (hs : src = render a) (hk : render (m ++ [x]) ∉ keys B.lite.nodes) (hi : Made N (.inst (m ++ [x]) a)) :
    Kept N layers (addProxy real B (render (m ++ [x])) src forced) := by
  unfold addProxy
  simp only
  have hpp : parentPath (render (m ++ [x])) ≠ [] := by
    rw [parentPath_render_snoc hn]
    intro h0
    have := Proxies.head_render m
    rw [h0] at this
    cases this
  obtain ⟨nm, hnm⟩ := sourceNode_name h real src
  have hsp := proxySpec_spec (sourceNode real B src) (parentPath (render (m ++ [x]))) nm hnm hpp
  generalize proxySpec (sourceNode real B src) (parentPath (render (m ++ [x]))) = spec at hsp ⊢
  have key : ∀ layer, Kept N layers ⟨{ B.lite with nodes := set (render (m ++ [x])) ⟨some src, [], true⟩ B.lite.nodes },
      set (render (m ++ [x])) ⟨proxyOwn layer src forced, [spec]⟩ B.tab⟩ := by
    intro layer
    have hk' : render (m ++ [x]) ∉ keys B.tab := by rw [h.keys]; exact hk
    refine ⟨?_, ?_, ?_⟩
    · simp only [keys_set, if_neg hk, if_neg hk', h.keys]
    · intro q n hq
      simp only [get?_set] at hq
      simp only [Proxies.instOf, get?_set]
      by_cases he : q = render (m ++ [x])
      · rw [if_pos he] at hq ⊢
        have hq := Option.some.inj hq
        subst hq
        have hown : get? A_INSTANCE (proxyOwn layer src forced) = some (.str src) := by cases forced <;> rfl
        have hst : stack layers q = [] := by
          refine Classical.byContradiction (fun hst => hk' ?_)
          rw [← he]; exact h.there q hst
        rw [← he] at hsp
        refine ⟨?_, ?_, ?_, fun hs => absurd hst hs, fun _ => ⟨spec, _, _, rfl, hsp, ?_, m ++ [x], a, he, hi, ?_⟩⟩
        · simp only [Comp.CompNode.attr, hown]; rfl
        · unfold firstTable; rw [List.findSome?_cons, hown]; rfl
        · obtain ⟨y, hy⟩ := hsp.name
          refine ⟨y, ?_⟩
          have : get? A_NAME (proxyOwn layer src forced) = none := by cases forced <;> rfl
          simp only [Comp.CompNode.attr, this, List.findSome?_cons, hy]
          rfl
        · intro k hk1 hk2
          rw [get?_eq_none]
          intro hm
          have : k ∈ A_SOURCE_LAYER :: EDITED := by
            cases forced
            · have h' : k ∈ [A_INSTANCE, A_INSTANCE ++ M_SOURCE] := hm
              revert h'; unfold EDITED; simp only [List.mem_cons, List.not_mem_nil, or_false]
              rintro (rfl | rfl) <;> simp
            · have h' : k ∈ [A_SOURCE_LAYER, A_INSTANCE, A_INSTANCE ++ M_SOURCE] := hm
              revert h'; unfold EDITED; simp only [List.mem_cons, List.not_mem_nil, or_false]
              rintro (rfl | rfl | rfl) <;> simp
          rcases List.mem_cons.1 this with h' | h'
          · exact hk2 h'
          · exact hk1 h'
        · intro hra
          rw [hs]
          have hth := h.there _ hra
          cases hg : get? (render a) B.tab with
          | none => exact absurd hth (get?_eq_none.1 hg)
          | some r =>
            have : sourceNode real B (render a) = r := by unfold sourceNode; rw [hg]
            rw [this]
            have hr := h.tab _ r hg
            exact ⟨hr.attr_real hra (by decide +kernel), hr.attr_real hra (by decide +kernel)⟩
      · rw [if_neg he] at hq ⊢
        exact h.tab q n hq
    · intro q hq
      exact mem_keys_set.2 (.inr (h.there q hq))
  split
  · exact key _
  · exact kept_setOrder (key _) _ _

theorem kept_create (same : Str → Str → Bool) (real : Option Str) {acc : BSt × List Str} (h : Kept N layers acc.1) {K : List Str}
    {st : Str × Str} (ht : Proxies.Todo N K st) : Kept N layers (create same real acc st).1 := by
  obtain ⟨p, a, -, h1, h2, h3, h4, -, -, m, x, rfl, -⟩ := ht
  unfold create
  simp only
  have h0 := kept_standIn h st.1
  generalize standIn acc.1 st.1 = B at h0 ⊢
  generalize (decide (st.1 ∉ keys acc.1.lite.nodes) && !Proxies.isImplied acc.1.lite st.1) = forced
  split
  · exact kept_congr (kept_takeOver h0 real st.2 st.1) _ rfl (fun _ => rfl)
  · rename_i hk
    rw [h2] at hk ⊢
    exact kept_congr (kept_addProxy h0 real forced h3.names h1 hk h4) _ rfl (fun _ => rfl)

theorem kept_createFold (same : Str → Str → Bool) (real : Option Str) {K : List Str} (l : List (Str × Str))
    (hl : ∀ st ∈ l, Proxies.Todo N K st) : ∀ acc : BSt × List Str, Kept N layers acc.1 →
    Kept N layers (l.foldl (create same real) acc).1 := by
  induction l with
  | nil => intro acc h; exact h
  | cons st l ih =>
    intro acc h
    rw [List.foldl_cons]
    exact ih (fun s hs => hl s (List.mem_cons_of_mem _ hs)) _ (kept_create same real h (hl st List.mem_cons_self))

theorem kept_proxyLoop (same : Str → Str → Bool) {kids : List Str → Str → List Str} (hk : GivesKids kids) (real : Option Str) :
    ∀ fuel (acc : BSt × List Str) T imp, Proxies.Good N acc.1.lite → Proxies.ImpOk N (acc.1.lite, acc.2) → Kept N layers acc.1 →
    proxyLoop same kids real fuel acc = some (T, imp) → Kept N layers T := by
  intro fuel
  induction fuel with
  | zero => intro acc T imp _ _ _ h; cases h
  | succ fuel ih =>
    intro acc T imp hg hi hkept h
    rw [proxyLoop] at h
    obtain ⟨l1, l2⟩ := lite_discoverAll same kids acc.1
    obtain ⟨d1, d2, d3, -⟩ := Proxies.discoverAll_spec same hk hg
    have hi' : Proxies.ImpOk N ((Proxies.discoverAll same kids acc.1.lite).1, acc.2) := by
      refine ⟨fun q hq => ?_, hi.new, fun U p a x rest => ?_⟩
      · rw [d2]; exact hi.there q hq
      · rw [d2]; exact hi.plain U p a x rest
    have hkd := kept_discoverAll same kids hkept
    split at h
    · cases h; exact hkd
    · obtain ⟨c1, c2, -⟩ := Proxies.createFold_spec same _ d3 ((Proxies.discoverAll same kids acc.1.lite).1, acc.2) d1 hi'
        (fun q hq => by rw [d2]; exact hq)
      have e := lite_createFold same real (discoverAll same kids acc.1).2 ((discoverAll same kids acc.1).1, acc.2)
      simp only [l1, l2] at e
      rw [← l2] at d3
      refine ih _ _ _ ?_ ?_ (kept_createFold same real _ d3 _ hkd) h
      · rw [l2, e.1]; exact c1
      · rw [l2, e.1, e.2]; exact c2

theorem keys_erase_congr {V W : Type} (k : Str) : ∀ (d : Dict Str V) (e : Dict Str W), keys d = keys e →
    keys (erase k d) = keys (erase k e) := by
  intro d
  induction d with
  | nil =>
    intro e h
    cases e with
    | nil => rfl
    | cons y e => cases h
  | cons x d ih =>
    intro e h
    cases e with
    | nil => cases h
    | cons y e =>
      obtain ⟨xk, xv⟩ := x
      obtain ⟨yk, yv⟩ := y
      simp only [keys_cons, List.cons.injEq] at h
      obtain ⟨rfl, h⟩ := h
      simp only [erase]
      split
      · exact h
      · simp only [keys_cons, ih e h]

theorem kept_erase {B : BSt} (h : Kept N layers B) (hok : Dict.Ok B.lite.nodes) {p : Str} (hp : stack layers p = []) :
    Kept N layers ⟨{ B.lite with nodes := erase p B.lite.nodes }, erase p B.tab⟩ := by
  have hok' : Dict.Ok B.tab := by unfold Dict.Ok; rw [h.keys]; exact hok
  refine ⟨keys_erase_congr p _ _ h.keys, fun q n hn => ?_, fun q hq => ?_⟩
  · simp only [get?_erase hok'] at hn
    simp only [Proxies.instOf, get?_erase hok]
    split at hn
    · cases hn
    · rename_i hne
      rw [if_neg hne]
      exact h.tab q n hn
  · rw [mem_keys_erase hok']
    exact ⟨by rintro rfl; exact hq hp, h.there q hq⟩

theorem kept_eraseFold (imp : List Str) (hi : ∀ p ∈ imp, stack layers p = []) : ∀ B : BSt, Kept N layers B → Dict.Ok B.lite.nodes →
    Kept N layers (imp.foldl (fun B p => (⟨{ B.lite with nodes := erase p B.lite.nodes }, erase p B.tab⟩ : BSt)) B) := by
  induction imp with
  | nil => intro B h _; exact h
  | cons p imp ih =>
    intro B h hok
    rw [List.foldl_cons]
    exact ih (fun q hq => hi q (List.mem_cons_of_mem _ hq)) _ (kept_erase h hok (hi p List.mem_cons_self)) (ok_erase hok p)

end Nxt.Build
