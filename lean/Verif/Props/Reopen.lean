import Verif.Props.InheritOrder
import Verif.Props.LayerData
import Verif.Spec.Reopen
/-!
# Property C128: a stage saved and opened again
-/
namespace Nxt.Props
open Dict NodeData Mro Spec LayerData
open Inherit hiding kept

namespace Reopen

/-! ## One layer -/

/-- What is left of a node: its attributes with the values kept, and every opinion on some internal attributes. -/
def Carried (b : List Str) (as : List Str) (n n' : Dict Str Val) : Prop :=
  (∀ k, UserName b k → get? k n' = (get? k n).map kept) ∧ ∀ a ∈ as, Alike (getAttr n a) (getAttr n' a)

theorem alike_refl (v : Val) : Alike v v := .inl rfl

theorem alike_opinion {v w : Val} (h : Alike v w) : v.hasOpinion = w.hasOpinion := by
  rcases h with rfl | ⟨h1, h2⟩
  · rfl
  · rw [h1, h2]

theorem default_opinion {a : Str} (ha : a ∈ TRACKED) : (internalDefault a).hasOpinion = false := by
  have hA : ∀ a ∈ TRACKED, a ≠ A_PARENT := by decide +kernel
  unfold internalDefault
  rw [if_neg (hA a ha)]
  split <;> rfl

theorem saved_name {n : Dict Str Val} {p : Str} (hn : getAttr n A_NAME = .str (Path.nodeName p)) (hp : ∃ ns, Names ns ∧ p = render ns)
    (hw : p ≠ ['/']) : savedAttrs n = SAVED := by
  unfold savedAttrs
  rw [hn]
  simp only
  rw [if_neg]
  obtain ⟨ns, hN, rfl⟩ := hp
  rcases Path.eq_nil_or_snoc ns with rfl | ⟨m, l, rfl⟩
  · exact absurd rfl hw
  · rw [(C09_parent_name_join m l hN).2.1]
    intro he
    have := (hN l (by simp)).2.1
    rw [he] at this
    exact this (by simp [Path.WORLD])

/-- One layer saved and loaded. -/
theorem layer_reopened {b : List Str} {file : Option Str} {T T' : Comp.LayerNodes} {order : Str → List Str}
    (g : GoodNodes T order) (hT : constructNodes file (nodesSaveData b T) = some T') :
    Dict.Ok T' ∧ (keys T').Perm (keys T) ∧ ∀ p n, get? p T = some n → ∃ n', get? p T' = some n' ∧
      (∀ k, UserName b k → get? k n' = (get? k n).map kept) ∧
      (∀ a ∈ TRACKED, get? a n' = some (keptInternal n a)) ∧
      (p ≠ ['/'] → ∀ a ∈ TRACKED, Alike (getAttr n a) (getAttr n' a)) ∧
      get? A_PARENT n' = some (.str (Path.parentPath p)) := by
  obtain ⟨T1, h1, h2, h3, _⟩ := C57_nodes_round_trip b file T order g
  rw [hT] at h1
  obtain rfl := Option.some.inj h1
  refine ⟨?_, h2, fun p n hp => ?_⟩
  · exact h2.nodup_iff.2 g.ok
  · obtain ⟨n', n0, e1, e2, e3, _⟩ := h3 p n hp
    obtain ⟨m1, m2, m3⟩ := g.node p n hp
    obtain ⟨n1, f1, _, f3, f4, f5, _, _, f8⟩ := C25_round_trip b n file p (order p) m1 m3
    rw [e2] at f1
    obtain rfl := Option.some.inj f1
    have htr : ∀ a ∈ TRACKED, get? a n' = some (keptInternal n a) := fun a ha => by
      have : ∀ a ∈ TRACKED, a ≠ A_CHILD_ORDER := by decide +kernel
      rw [e3 a (this a ha), f5 a ha]
    refine ⟨n', e1, fun k hk => ?_, htr, fun hw a ha => ?_, ?_⟩
    · have hne : k ≠ A_CHILD_ORDER := by rintro rfl; exact hk.2.1 (by decide +kernel)
      have hu := isUser_of_userName hk
      rw [e3 k hne]
      cases hg : get? k n with
      | none =>
        rw [Option.map_none, get?_eq_none, f3 k hu]
        exact get?_eq_none.1 hg
      | some v =>
        rw [(f4 k (mem_keys.2 ⟨v, mem_of_get? hg⟩) hu).1, getAttr_of_get? hg]; rfl
    · rw [getAttr_of_get? (htr a ha), keptInternal, saved_name m2 (g.path p (mem_keys.2 ⟨n, mem_of_get? hp⟩)) hw]
      have hS : ∀ a ∈ TRACKED, a ∈ SAVED := by decide +kernel
      cases ho : (getAttr n a).hasOpinion with
      | true => rw [if_pos ⟨hS a ha, rfl⟩]; exact .inl rfl
      | false => rw [if_neg (fun h => by cases h.2)]; exact .inr ⟨ho, default_opinion ha⟩
    · rw [e3 _ (by decide +kernel), f8]

/-! ## All layers -/

/-- What is left of the node at a path. -/
def Left (b : List Str) (p : Str) (n n' : Dict Str Val) : Prop :=
  (∀ k, UserName b k → get? k n' = (get? k n).map kept) ∧
  (∀ a ∈ TRACKED, get? a n' = some (keptInternal n a)) ∧
  (p ≠ ['/'] → ∀ a ∈ TRACKED, Alike (getAttr n a) (getAttr n' a)) ∧
  get? A_PARENT n' = some (.str (Path.parentPath p))

theorem reopened_stack {b : List Str} {layers layers' : List Comp.LayerNodes} (h : Reopened b layers layers')
    (hg : ∀ T ∈ layers, ∃ order, GoodNodes T order) (p : Str) : Each (Left b p) (stack layers p) (stack layers' p) := by
  induction h with
  | nil => exact .nil
  | @cons file T T' ls ls' hT _ ih =>
    have ih := ih fun x hx => hg x (List.mem_cons_of_mem _ hx)
    obtain ⟨order, hgood⟩ := hg T List.mem_cons_self
    obtain ⟨_, h2, h3⟩ := layer_reopened hgood hT
    unfold stack at ih ⊢
    rw [List.filterMap_cons, List.filterMap_cons]
    cases e : get? p T with
    | none =>
      have : get? p T' = none := by
        rw [get?_eq_none] at e ⊢
        exact fun hm => e (h2.mem_iff.1 hm)
      rw [this]; exact ih
    | some n =>
      obtain ⟨n', e', h4⟩ := h3 p n e
      rw [e']; exact .cons h4 ih

theorem parent_text {ns : List Str} (h : Names ns) : Path.parentPath (render ns) = parentText ns := by
  rcases Path.eq_nil_or_snoc ns with rfl | ⟨m, l, rfl⟩
  · decide +kernel
  · rw [Path.parentPath_render_snoc h]
    unfold parentText
    rw [if_neg (by simp), List.dropLast_concat]

theorem reopened_specs {b : List Str} {layers layers' : List Comp.LayerNodes} (h : Reopened b layers layers')
    (hg : ∀ T ∈ layers, ∃ order, GoodNodes T order) : SpecNodes layers' := by
  have key : ∀ l' ∈ layers', Dict.Ok l' ∧ ∀ p n', (p, n') ∈ l' → (∃ ns, Names ns ∧ p = render ns) ∧
      (∀ a ∈ TRACKED, (get? a n').isSome) ∧ get? A_PARENT n' = some (.str (Path.parentPath p)) := by
    induction h with
    | nil => intro l' hl'; cases hl'
    | @cons file T T' ls ls' hT _ ih =>
      intro l' hl'
      rcases List.mem_cons.1 hl' with rfl | hl'
      · obtain ⟨order, hgood⟩ := hg T List.mem_cons_self
        obtain ⟨h1, h2, h3⟩ := layer_reopened hgood hT
        refine ⟨h1, fun p n' hn' => ?_⟩
        have hk : p ∈ keys T := h2.mem_iff.1 (mem_keys.2 ⟨n', hn'⟩)
        obtain ⟨n, hn⟩ := mem_keys.1 hk
        obtain ⟨n1, e1, _, e3, _, e5⟩ := h3 p n (get?_of_mem hgood.ok hn)
        rw [get?_of_mem h1 hn'] at e1
        obtain rfl := Option.some.inj e1
        exact ⟨hgood.path p hk, fun a ha => by rw [e3 a ha]; rfl, e5⟩
      · exact ih (fun x hx => hg x (List.mem_cons_of_mem _ hx)) l' hl'
  refine ⟨fun l hl => (key l hl).1, fun l hl p n hm => ((key l hl).2 p n hm).1, ?_, ?_⟩
  · intro l hl ns n hN hm
    rw [← parent_text hN]
    exact ((key l hl).2 _ n hm).2.2
  · intro l hl p n hm a ha
    have : ∀ a ∈ ["_instance", "_enabled", "_comment", "_code"].map String.toList, a ∈ TRACKED := by decide +kernel
    exact ((key l hl).2 p n hm).2.1 a (this a ha)

/-! ## Layers which say alike -/

/-- At every path equally many nodes, each with what is left of the other. -/
def Akin (b as : List Str) (a a' : List Comp.LayerNodes) : Prop := ∀ p, Each (Carried b as) (stack a p) (stack a' p)

theorem reopened_akin {b : List Str} {layers layers' : List Comp.LayerNodes} (h : Reopened b layers layers')
    (hg : ∀ T ∈ layers, ∃ order, GoodNodes T order) {as : List Str} (has : ∀ a ∈ as, a ∈ TRACKED)
    (hw : ∀ a ∈ as, a ∉ WORLD_SAVED → ∀ n ∈ stack layers ['/'], (getAttr n a).hasOpinion = false) : Akin b as layers layers' := by
  intro p
  have := reopened_stack h hg p
  have hw : p = ['/'] → ∀ a ∈ as, a ∉ WORLD_SAVED → ∀ n ∈ stack layers p, (getAttr n a).hasOpinion = false := by
    rintro rfl; exact hw
  have hnm : p = ['/'] → ∀ n ∈ stack layers p, getAttr n A_NAME = .str Path.WORLD := by
    rintro rfl n hn
    obtain ⟨l, hl, hm⟩ := mem_stack hn
    obtain ⟨order, hgood⟩ := hg l hl
    exact (hgood.node _ n (get?_of_mem hgood.ok hm)).2.1
  generalize stack layers p = x at this hw hnm
  generalize stack layers' p = y at this
  induction this with
  | nil => exact .nil
  | @cons n n' ns ns' hn _ ih =>
    refine .cons ⟨hn.1, fun a ha => ?_⟩ (ih (fun e a ha h m hm => hw e a ha h m (List.mem_cons_of_mem _ hm))
      (fun e m hm => hnm e m (List.mem_cons_of_mem _ hm)))
    by_cases hp : p = ['/']
    · rw [getAttr_of_get? (hn.2.1 a (has a ha)), keptInternal]
      have hs : savedAttrs n = WORLD_SAVED := by
        unfold savedAttrs; rw [hnm hp n List.mem_cons_self]; rfl
      rw [hs]
      by_cases ho : a ∈ WORLD_SAVED ∧ (getAttr n a).hasOpinion = true
      · rw [if_pos ho]; exact .inl rfl
      · rw [if_neg ho]
        refine .inr ⟨?_, default_opinion (has a ha)⟩
        by_cases hm : a ∈ WORLD_SAVED
        · simpa using fun h => ho ⟨hm, h⟩
        · exact hw hp a ha hm n List.mem_cons_self
    · exact hn.2.2.1 hp a (has a ha)

/-- The tables of a node give for an internal attribute the strongest opinion, or none. -/
theorem first_opinion_of {layers : List Comp.LayerNodes} (h : SpecNodes layers) {p : Str} {c : Nat} (hc : (p, c) ∈ (classesOf layers).2)
    {a : Str} (hov : a ∈ Comp.OVERLOAD) (hkey : ∀ l ∈ layers, ∀ p n, (p, n) ∈ l → (get? a n).isSome) :
    ∃ v, firstTable a (tablesOf (classesOf layers).1 (classesOf layers).1.bases c) = some v ∧
      (∃ n ∈ stack layers p, v = getAttr n a) ∧
      match strongest (stack layers p) a with | some n => v = getAttr n a | none => v.hasOpinion = false := by
  obtain ⟨hne, ht⟩ := (classesOf_spec h).2.2.1 _ c hc
  rw [ht]
  unfold firstTable
  rw [List.findSome?_cons]
  have hno : a ≠ A_CHILD_ORDER ∧ A_NAME ≠ a := by
    have : ∀ a ∈ Comp.OVERLOAD, a ≠ A_CHILD_ORDER ∧ A_NAME ≠ a := by decide +kernel
    exact this a hov
  have hown : get? a (Comp.compNode p (stack layers p)).own =
      match strongest (stack layers p) a with | some n => some (getAttr n a) | none => none := by
    unfold Comp.compNode
    simp only
    rw [get?_set, if_neg hno.1]
    have key : ∀ own co, get? a own = none →
        get? a ((stack layers p).reverse.foldl (Comp.overloadBase p) (own, co)).1 =
          match strongest (stack layers p) a with | some n => some (getAttr n a) | none => none := by
      intro own co hown
      have := (Comp.overload_fold p (stack layers p) own co a hov).1
      rw [hown] at this
      exact this
    apply key
    cases (stack layers p).head? with
    | none => rfl
    | some m => simp only [get?]; rw [if_neg hno.2]
  rw [hown]
  cases hst : strongest (stack layers p) a with
  | some n => exact ⟨_, rfl, ⟨n, List.mem_of_find?_eq_some hst, rfl⟩, rfl⟩
  | none =>
    simp only
    obtain ⟨n, t, hs⟩ := List.exists_cons_of_ne_nil hne
    have hn : n ∈ stack layers p := by rw [hs]; simp
    obtain ⟨l, hl, hm⟩ := mem_stack hn
    obtain ⟨v, hv⟩ := Option.isSome_iff_exists.1 (hkey l hl p n hm)
    refine ⟨v, by rw [hs, List.findSome?_cons, hv], ⟨n, hn, (getAttr_of_get? hv).symm⟩, ?_⟩
    unfold strongest at hst
    have := List.find?_eq_none.1 hst n hn
    rw [getAttr_of_get? hv] at this
    simpa using this

theorem first_opinion {layers : List Comp.LayerNodes} (h : SpecNodes layers) {p : Str} {c : Nat} (hc : (p, c) ∈ (classesOf layers).2)
    {a : Str} (ha : a ∈ ["_instance", "_enabled", "_comment", "_code"].map String.toList) :
    ∃ v, firstTable a (tablesOf (classesOf layers).1 (classesOf layers).1.bases c) = some v ∧
      match strongest (stack layers p) a with | some n => v = getAttr n a | none => v.hasOpinion = false := by
  have : ∀ a ∈ ["_instance", "_enabled", "_comment", "_code"].map String.toList, a ∈ Comp.OVERLOAD := by decide +kernel
  obtain ⟨v, h1, _, h2⟩ := first_opinion_of h hc (this a ha) fun l hl p n hm => h.keys l hl p n hm a ha
  exact ⟨v, h1, h2⟩

theorem strongest_akin {b as : List Str} {x y : List (Dict Str Val)} (h : Each (Carried b as) x y) {a : Str} (ha : a ∈ as) :
    Both (fun n n' => Alike (getAttr n a) (getAttr n' a)) (strongest x a) (strongest y a) := by
  induction h with
  | nil => exact .none
  | @cons n n' ns ns' h1 _ ih =>
    have := h1.2 a ha
    have ho := alike_opinion this
    unfold strongest at ih ⊢
    rw [List.find?_cons, List.find?_cons]
    cases e : (getAttr n a).hasOpinion with
    | true => rw [e] at ho; rw [← ho]; exact .some this
    | false => rw [e] at ho; rw [← ho]; exact ih

theorem first_akin {b as : List Str} {l l' : List Comp.LayerNodes} (hl : SpecNodes l) (hl' : SpecNodes l') (h : Akin b as l l')
    {a : Str} (ha : a ∈ as) (ha4 : a ∈ ["_instance", "_enabled", "_comment", "_code"].map String.toList) {p : Str} {c c' : Nat}
    (hc : (p, c) ∈ (classesOf l).2) (hc' : (p, c') ∈ (classesOf l').2) :
    Both Alike (firstTable a (tablesOf (classesOf l).1 (classesOf l).1.bases c))
      (firstTable a (tablesOf (classesOf l').1 (classesOf l').1.bases c')) := by
  obtain ⟨v, h1, h2⟩ := first_opinion hl hc ha4
  obtain ⟨w, h3, h4⟩ := first_opinion hl' hc' ha4
  rw [h1, h3]
  have := strongest_akin (h p) ha
  generalize strongest (stack l p) a = x at this h2
  generalize strongest (stack l' p) a = y at this h4
  cases this with
  | none => exact .some (.inr ⟨h2, h4⟩)
  | some h5 => rw [h2, h4]; exact .some h5

theorem twins_akin {b as : List Str} {l l' : List Comp.LayerNodes} (hl : SpecNodes l) (hl' : SpecNodes l') (h : Akin b as l l')
    (ha : "_instance".toList ∈ as) :
    Twins (classesOf l).1 (classesOf l').1 (classesOf l).2 (classesOf l').2 (classesOf l).1.bases (classesOf l').1.bases := by
  obtain ⟨h1, h2, h3, h4⟩ := classesOf_spec hl
  obtain ⟨k1, k2, k3, k4⟩ := classesOf_spec hl'
  have hlen : ∀ p, (stack l p).length = (stack l' p).length := fun p => (h p).length_eq
  have hp : ∀ p, (get? p (classesOf l).2).isSome = (get? p (classesOf l').2).isSome := by
    intro p
    have e1 := h4 p
    have e2 := k4 p
    rw [← List.length_eq_zero_iff] at e1 e2
    rw [hlen p, ← e2] at e1
    cases e : get? p (classesOf l).2 <;> cases e' : get? p (classesOf l').2 <;> simp_all
  refine ⟨h1, k1, hp, fun p c c' hc hc' => ?_, fun p c c' hc hc' => ?_⟩
  · have e1 := congrArg List.length (h3 p c hc).2
    have e2 := congrArg List.length (k3 p c' hc').2
    simp only [tablesOf, List.length_cons, List.length_map, Nat.add_right_cancel_iff] at e1 e2
    rw [e1, e2, hlen p]
  · have := first_akin hl hl' h ha (by decide +kernel) hc hc'
    unfold instSource
    generalize firstTable "_instance".toList (tablesOf (classesOf l).1 (classesOf l).1.bases c) = x at this
    generalize firstTable "_instance".toList (tablesOf (classesOf l').1 (classesOf l').1.bases c') = y at this
    cases this with
    | none => exact .none
    | @some v w h5 =>
      rcases h5 with rfl | ⟨h5, h6⟩
      · split
        · split
          · exact .none
          · exact twin_both hp _
        · exact .none
      · have hv : ∀ v : Val, v.hasOpinion = false → ∀ s, v ≠ .str s := by
          rintro v hv s rfl; cases hv
        split
        · rename_i ip e; exact absurd (Option.some.inj e) (hv v h5 ip)
        · split
          · rename_i ip e; exact absurd (Option.some.inj e) (hv w h6 ip)
          · exact .none

theorem own_user {b : List Str} {k : Str} (hk : UserName b k) (p : Str) (bases : List (Dict Str Val)) :
    get? k (Comp.compNode p bases).own = none := by
  have hint : k ∉ internalNames := hk.2.1
  apply own_other
  · intro hm
    have : ∀ x ∈ Comp.OVERLOAD, x ∈ internalNames := by decide +kernel
    exact hint (this k hm)
  · intro x _
    exact hk.2.2 "source".toList (by decide +kernel) x
  · rintro rfl; exact hint (by decide +kernel)
  · rintro rfl; exact hint (by decide +kernel)

theorem class_user {b : List Str} {k : Str} (hk : UserName b k) : get? k NODE_CLASS = none := by
  rw [get?_eq_none]
  intro hm
  have : ∀ x ∈ keys NODE_CLASS, x ∈ internalNames := by decide +kernel
  exact hk.2.1 (this k hm)

theorem user_untouched {b : List Str} {k : Str} (hk : UserName b k) : Untouched k := by
  intro a ha
  refine ⟨?_, hk.2.2 "source".toList (by decide +kernel) a⟩
  rintro rfl
  have : ∀ a ∈ ["_enabled".toList, "_comment".toList, "_code".toList], a ∈ internalNames := by decide +kernel
  exact hk.2.1 (this k ha)

theorem findSome?_kept {R : Nat → Nat → Prop} {f f' : Nat → Option Val} {l l' : List Nat} (h : Each R l l')
    (hf : ∀ a b, R a b → f' b = (f a).map kept) : l'.findSome? f' = (l.findSome? f).map kept := by
  induction h with
  | nil => rfl
  | @cons a b _ _ h1 _ ih =>
    rw [List.findSome?_cons, List.findSome?_cons, hf _ _ h1, ih]
    cases f a <;> rfl

theorem each_user {b as : List Str} {k : Str} (hk : UserName b k) {x y : List (Dict Str Val)} (h : Each (Carried b as) x y) :
    Each (fun t t' => get? k t' = (get? k t).map kept) x y := by
  induction h with
  | nil => exact .nil
  | cons h1 _ ih => exact .cons (h1.1 k hk) ih

end Reopen
open Reopen

/-! ## C128 -/

/-- C128: what was saved of good layers loads again, and gives layers the same nodes can be composed of. -/
theorem C128_reopens (b : List Str) {layers : List Comp.LayerNodes} (hg : ∀ T ∈ layers, ∃ order, GoodNodes T order) :
    ∃ layers', Reopened b layers layers' ∧ SpecNodes layers' ∧
      ∀ p, (stack layers' p).length = (stack layers p).length := by
  have : ∃ layers', Reopened b layers layers' := by
    induction layers with
    | nil => exact ⟨[], .nil⟩
    | cons T ls ih =>
      obtain ⟨ls', h1⟩ := ih fun x hx => hg x (List.mem_cons_of_mem _ hx)
      obtain ⟨order, hgood⟩ := hg T List.mem_cons_self
      obtain ⟨T', h2, _⟩ := C57_nodes_round_trip b none T order hgood
      exact ⟨T' :: ls', .cons h2 h1⟩
  obtain ⟨layers', h⟩ := this
  exact ⟨layers', h, reopened_specs h hg, fun p => (reopened_stack h hg p).length_eq.symm⟩

/-- C128: a stage saved and opened again has the same nodes, each takes from the same nodes as before, and
every attribute of the user has the value it had, as far as it was kept (falsy values and values JSON cannot hold become
`None`), if both compositions succeed; the order in which nodes are composed does not matter.  The world must not be an
instance, since that is not saved.  Missing: that the composition of the opened stage succeeds, which is not so
(`C128_success_violation`). -/
theorem C128_attributes_partial {b : List Str} {layers layers' : List Comp.LayerNodes} (h : Reopened b layers layers')
    (hs : SpecNodes layers) (hg : ∀ T ∈ layers, ∃ order, GoodNodes T order)
    (hw : ∀ n ∈ stack layers ['/'], (getAttr n "_instance".toList).hasOpinion = false)
    {order order' : List (Str × Nat)} (ho : order.Perm (classesOf layers).2) (ho' : order'.Perm (classesOf layers').2)
    {g g' : Classes} (hc : postProxy (classesOf layers).2 order (classesOf layers).1 = some g)
    (hc' : postProxy (classesOf layers').2 order' (classesOf layers').1 = some g') :
    (∀ p, (get? p (classesOf layers).2).isSome = (get? p (classesOf layers').2).isSome) ∧
    ∀ p c c', get? p (classesOf layers).2 = some c → get? p (classesOf layers').2 = some c' →
      (∀ q d d', get? q (classesOf layers).2 = some d → get? q (classesOf layers').2 = some d' →
        (d ∈ (g.mro c).getD [] ↔ d' ∈ (g'.mro c').getD [])) ∧
      ∀ k, UserName b k → g'.attr? c' k = (g.attr? c k).map kept := by
  have hs' := reopened_specs h hg
  have hA : Akin b ["_instance".toList] layers layers' := reopened_akin h hg (by decide +kernel) (by
    intro a ha _
    rw [List.mem_singleton.1 ha]; exact hw)
  have ht := twins_akin hs hs' hA (List.mem_singleton.2 rfl)
  obtain ⟨h1, h2, h3, h4, _⟩ := classesOf_ready hs
  obtain ⟨k1, k2, k3, k4, _⟩ := classesOf_ready hs'
  obtain ⟨_, hroot, htab, _⟩ := classesOf_spec hs
  obtain ⟨_, hroot', htab', _⟩ := classesOf_spec hs'
  obtain ⟨links, l1, l2, l3, l4⟩ := postProxy_done h1 h2 h3 h4 ho hc
  obtain ⟨links', m1, m2, m3, m4⟩ := postProxy_done k1 k2 k3 k4 ho' hc'
  refine ⟨ht.paths, fun p c c' hc hc' => ?_⟩
  have hc := mem_of_get? hc
  have hc' := mem_of_get? hc'
  obtain ⟨l, hl⟩ := l2 p c hc
  obtain ⟨l', hl'⟩ := m2 p c' hc'
  have he := twin_orders ht h2 l1 l2 l4 m1 m2 m4 hl c' l' (.comp hc hc') hl'
  have e1 := (Laid.mro_iff l1 (l1.comp p c hc).2.1).2 hl
  have e2 := (Laid.mro_iff m1 (m1.comp p c' hc').2.1).2 hl'
  refine ⟨fun q d d' hd hd' => ?_, fun k hk => ?_⟩
  · rw [e1, e2]
    exact he.mem_iff (twin_oneToOne l1 m1) (.comp (mem_of_get? hd) (mem_of_get? hd'))
  · unfold Classes.attr?
    rw [e1, e2, Option.bind_some, Option.bind_some]
    have hk' := untouched (user_untouched hk)
    refine findSome?_kept he fun d d' hdd => ?_
    rw [l3 d k hk', m3 d' k hk']
    refine twin_own (S := fun t t' => get? k t' = (get? k t).map kept) ?_ (fun p c c' hc hc' => ?_) hdd
    · rw [hroot, hroot', class_user hk]; rfl
    · rw [(htab p c hc).2, (htab' p c' hc').2]
      refine .cons (by rw [own_user hk, own_user hk]; rfl) ?_
      exact each_user hk (hA p)

/-- C128: the enabled state, the comment and the code of every node are those from before, or there was no opinion
and there is none, if both compositions succeed.  The world must not be an instance and must have no opinion on being
enabled, since neither is saved.  Missing as above. -/
theorem C128_composed_partial {b : List Str} {layers layers' : List Comp.LayerNodes} (h : Reopened b layers layers')
    (hs : SpecNodes layers) (hg : ∀ T ∈ layers, ∃ order, GoodNodes T order)
    (hw : ∀ n ∈ stack layers ['/'], (getAttr n "_instance".toList).hasOpinion = false)
    {table table' : List (Str × Nat)} (ht : table.Perm (classesOf layers).2) (ht' : table'.Perm (classesOf layers').2) {g g' : Classes}
    (hc : postProxy (classesOf layers).2 (sortInstances (classesOf layers).2 table (classesOf layers).1) (classesOf layers).1 = some g)
    (hc' : postProxy (classesOf layers').2 (sortInstances (classesOf layers').2 table' (classesOf layers').1) (classesOf layers').1 = some g')
    {p : Str} {c c' : Nat} (hp : get? p (classesOf layers).2 = some c) (hp' : get? p (classesOf layers').2 = some c') {x : Str}
    (hx : x ∈ ["_enabled".toList, "_comment".toList, "_code".toList])
    (hwx : x = "_enabled".toList → ∀ n ∈ stack layers ['/'], (getAttr n x).hasOpinion = false) :
    Alike (g.attr c x) (g'.attr c' x) := by
  have hs' := reopened_specs h hg
  have hA : Akin b ["_instance".toList, x] layers layers' := by
    refine reopened_akin h hg ?_ ?_
    · have : ∀ x ∈ ["_enabled".toList, "_comment".toList, "_code".toList], x ∈ TRACKED := by decide +kernel
      intro a ha
      rcases List.mem_cons.1 ha with rfl | ha
      · decide +kernel
      · rw [List.mem_singleton.1 ha]; exact this x hx
    · intro a ha hn
      rcases List.mem_cons.1 ha with rfl | ha
      · exact hw
      · rw [List.mem_singleton.1 ha] at hn ⊢
        refine hwx ?_
        simp only [List.mem_cons, List.not_mem_nil, or_false] at hx
        rcases hx with rfl | rfl | rfl
        · rfl
        · exact absurd (by decide +kernel) hn
        · exact absurd (by decide +kernel) hn
  have htw := twins_akin hs hs' hA List.mem_cons_self
  obtain ⟨h1, h2, h3, h4, h5⟩ := classesOf_ready hs
  obtain ⟨k1, k2, k3, k4, k5⟩ := classesOf_ready hs'
  have hno : ∀ (l : List Comp.LayerNodes), SpecNodes l →
      (∀ n ∈ stack l ['/'], (getAttr n "_instance".toList).hasOpinion = false) →
      ∀ n ∈ stack l ['/'], get? "_instance".toList n ≠ some (.str ['/']) := by
    intro l _ hl n hn he
    have := hl n hn
    rw [getAttr_of_get? he] at this
    cases this
  have hw' : ∀ n ∈ stack layers' ['/'], (getAttr n "_instance".toList).hasOpinion = false := by
    have := hA ['/']
    revert hw
    generalize stack layers ['/'] = u at this
    generalize stack layers' ['/'] = v at this
    induction this with
    | nil => intro _ n hn; cases hn
    | cons h1 _ ih =>
      intro hw n hn
      rcases List.mem_cons.1 hn with rfl | hn
      · rw [← alike_opinion (h1.2 _ List.mem_cons_self)]; exact hw _ List.mem_cons_self
      · exact ih (fun m hm => hw m (List.mem_cons_of_mem _ hm)) n hn
  have c1 := C75_composed_partial h1 h2 h3 h4 (world_instance hs (hno _ hs hw)) ht hc hx (h5 x hx) (mem_of_get? hp)
  have c2 := C75_composed_partial k1 k2 k3 k4 (world_instance hs' (hno _ hs' hw')) ht' hc' hx (k5 x hx) (mem_of_get? hp')
  have hx4 : x ∈ ["_instance", "_enabled", "_comment", "_code"].map String.toList := by
    have : ∀ x ∈ ["_enabled".toList, "_comment".toList, "_code".toList],
        x ∈ ["_instance", "_enabled", "_comment", "_code"].map String.toList := by decide +kernel
    exact this x hx
  obtain ⟨w, h6, h7⟩ := chosen_twin htw (S := Alike) (fun _ _ h => alike_opinion h)
    (fun p c c' hc hc' => first_akin hs hs' hA (List.mem_cons_of_mem _ List.mem_cons_self) hx4 hc hc') c1 p c'
    (mem_of_get? hp) (mem_of_get? hp')
  rw [Chosen.unique c2 h6]
  exact h7

/-- C128: if what is instanced is always plain (neither an instance itself nor below one), the stage composes, and
so does the stage saved and opened again, to the same: the same attributes as far as kept, the same comments and code. -/
theorem C128_plain {b : List Str} {layers layers' : List Comp.LayerNodes} (h : Reopened b layers layers')
    (hs : SpecNodes layers) (hg : ∀ T ∈ layers, ∃ order, GoodNodes T order)
    (hw : ∀ n ∈ stack layers ['/'], (getAttr n "_instance".toList).hasOpinion = false)
    (hplain : ∀ p c d, get? p (classesOf layers).2 = some c →
      instSource (classesOf layers).1 (classesOf layers).2 (classesOf layers).1.bases c = some d →
      Plain (classesOf layers).1 (classesOf layers).2 (classesOf layers).1.bases d) :
    ∃ g g', postProxy (classesOf layers).2
        (sortInstances (classesOf layers).2 (classesOf layers).2 (classesOf layers).1) (classesOf layers).1 = some g ∧
      postProxy (classesOf layers').2
        (sortInstances (classesOf layers').2 (classesOf layers').2 (classesOf layers').1) (classesOf layers').1 = some g' ∧
      ∀ p c, get? p (classesOf layers).2 = some c → ∃ c', get? p (classesOf layers').2 = some c' ∧
        (∀ k, UserName b k → g'.attr? c' k = (g.attr? c k).map kept) ∧
        ∀ x ∈ ["_comment".toList, "_code".toList], Alike (g.attr c x) (g'.attr c' x) := by
  have hs' := reopened_specs h hg
  have hA : Akin b ["_instance".toList] layers layers' := reopened_akin h hg (by decide +kernel) (by
    intro a ha _
    rw [List.mem_singleton.1 ha]; exact hw)
  have ht := twins_akin hs hs' hA (List.mem_singleton.2 rfl)
  obtain ⟨h1, h2, h3, h4, _⟩ := classesOf_ready hs
  obtain ⟨k1, k2, k3, k4, _⟩ := classesOf_ready hs'
  have hp1 : (sortInstances (classesOf layers).2 (classesOf layers).2 (classesOf layers).1).Perm (classesOf layers).2 :=
    (C16_stable_sort _ _).1
  have hp2 : (sortInstances (classesOf layers').2 (classesOf layers').2 (classesOf layers').1).Perm (classesOf layers').2 :=
    (C16_stable_sort _ _).1
  obtain ⟨g, hc⟩ := C77_plain_sources_partial h1 h2 h3 h4
    (fun p c d hc hd => hplain p c d (get?_of_mem h1.ok hc) hd) hp1
  obtain ⟨g', hc'⟩ := C77_plain_sources_partial k1 k2 k3 k4 (plain_sources ht hplain) hp2
  refine ⟨g, g', hc, hc', fun p c hp => ?_⟩
  have hb := ht.paths p
  rw [hp] at hb
  obtain ⟨c', hp'⟩ := Option.isSome_iff_exists.1 hb.symm
  refine ⟨c', hp', ((C128_attributes_partial h hs hg hw hp1 hp2 hc hc').2 p c c' hp hp').2, fun x hx => ?_⟩
  refine C128_composed_partial h hs hg hw (List.Perm.refl _) (List.Perm.refl _) hc hc' hp hp' (List.mem_cons_of_mem _ hx) ?_
  rintro rfl
  exact absurd hx (by decide +kernel)

/-! ## Examples -/

/-- A node as the editor has it: namespace, instance path, children and further attributes. -/
def exOpenSpec (ns : List String) (inst : String) (children : List String) (more : Dict Str Val) : Str × Dict Str Val :=
  (render (ns.map String.toList), exInheritSpec (ns.map String.toList) (if inst = "" then .none else .str inst.toList) .none
    ((A_CHILD_ORDER, .list (children.map (fun c => Val.str c.toList))) :: more))

/-- The layer of `exOrder`, with the children of every node in order; `/q` was added before `/p`. -/
def exUnsaved : Comp.LayerNodes :=
  [exOpenSpec [] "" ["q", "p"] [], exOpenSpec ["q"] "/p/x" ["b"] [], exOpenSpec ["p"] "" ["c", "x"] [],
   exOpenSpec ["p", "c"] "/q/b" [] [], exOpenSpec ["p", "x"] "" [] [], exOpenSpec ["q", "b"] "" [] []]

def exUnsavedOrder (p : Str) : List Str :=
  (get? p [("/".toList, ["q".toList, "p".toList]), ("/q".toList, ["b".toList]), ("/p".toList, ["c".toList, "x".toList])]).getD []

theorem exUnsaved_good : GoodNodes exUnsaved exUnsavedOrder where
  ok := by
    show List.Nodup (keys exUnsaved)
    decide +kernel
  path := by
    intro p hp
    have : ∀ p ∈ keys exUnsaved, p ∈ [[], [['q']], [['p']], [['p'], ['c']], [['p'], ['x']], [['q'], ['b']]].map render := by
      decide +kernel
    obtain ⟨ns, hm, rfl⟩ := List.mem_map.1 (this p hp)
    have hN : ∀ ns ∈ ([[], [['q']], [['p']], [['p'], ['c']], [['p'], ['x']], [['q'], ['b']]] : List (List Str)), Names ns := by
      unfold Names IsName; decide +kernel
    exact ⟨ns, hN ns hm, rfl⟩
  node := by
    intro p n hn
    have := mem_of_get? hn
    simp only [exUnsaved, exOpenSpec, List.mem_cons, List.not_mem_nil, or_false, Prod.mk.injEq] at this
    rcases this with ⟨rfl, rfl⟩ | ⟨rfl, rfl⟩ | ⟨rfl, rfl⟩ | ⟨rfl, rfl⟩ | ⟨rfl, rfl⟩ | ⟨rfl, rfl⟩ <;>
    exact ⟨by unfold Dict.Ok; decide +kernel, by rfl, by rfl⟩
  listed := by
    have : ∀ p ∈ keys exUnsaved, p ≠ Path.WORLD → (exUnsavedOrder p).Nodup ∧
      ∀ q ∈ keys exUnsaved, Path.parentPath q = p → Path.nodeName q ∈ exUnsavedOrder p := by decide +kernel
    exact this

theorem exUnsaved_spec : SpecNodes [exUnsaved] where
  ok := by intro l hl; rw [List.mem_singleton.1 hl]; exact exUnsaved_good.ok
  path := by
    intro l hl p n hm
    rw [List.mem_singleton.1 hl] at hm
    exact exUnsaved_good.path p (mem_keys.2 ⟨n, hm⟩)
  parent := by
    intro l hl ns n hN hm
    rw [List.mem_singleton.1 hl] at hm
    have key : ∀ ms m, Names ms → render ns = render ms → m = parentText ms → m = parentText ns := by
      intro ms m h1 h2 h3
      rw [Path.render_inj hN h1 h2, h3]
    simp only [exUnsaved, exOpenSpec, List.mem_cons, List.not_mem_nil, or_false, Prod.mk.injEq] at hm
    rcases hm with ⟨e, rfl⟩ | ⟨e, rfl⟩ | ⟨e, rfl⟩ | ⟨e, rfl⟩ | ⟨e, rfl⟩ | ⟨e, rfl⟩ <;>
    rw [Path.render_inj hN (by unfold Names IsName; decide +kernel) e] <;> rfl
  keys := by
    intro l hl p n hm a ha
    rw [List.mem_singleton.1 hl] at hm
    have : ∀ e ∈ exUnsaved, ∀ a ∈ ["_instance", "_enabled", "_comment", "_code"].map String.toList, (get? a e.2).isSome = true := by
      decide +kernel
    exact this _ hm a ha

/-- What is written of `exUnsaved`: the nodes by path. -/
def exWritten : Dict Str Val :=
  Layer.leftoverLoop (exUnsaved.foldl (fun d pn => set pn.1 (.dict (saveNode [] pn.2)) d) [])
    (["/", "/p", "/p/c", "/p/x", "/q", "/q/b"].map String.toList) []

theorem exWritten_eq : nodesSaveData [] exUnsaved = exWritten := by
  have : ((keys (exUnsaved.foldl (fun d pn => Dict.set pn.1 (Val.dict (saveNode [] pn.2)) d) [])).mergeSort strLe)
      = ["/", "/p", "/p/c", "/p/x", "/q", "/q/b"].map String.toList := by
    refine List.Perm.eq_of_pairwise (le := fun a b => strLe a b = true) (fun a b _ _ h1 h2 => strLe_antisymm _ _ h1 h2)
      (List.pairwise_mergeSort strLe_trans strLe_total _) (by decide +kernel) ((List.mergeSort_perm _ _).trans ?_)
    decide +kernel
  unfold nodesSaveData Layer.orderNodesDict
  rw [this]; rfl

/-- The layer which is loaded. -/
def exLoadedAgain : Comp.LayerNodes := (loadNodes none (Layer.leftoverLoop exWritten (keys exWritten) []) []).getD []

theorem exUnsaved_reopened : Reopened [] [exUnsaved] [exLoadedAgain] := by
  refine .cons (file := none) ?_ .nil
  rw [exWritten_eq]
  unfold constructNodes Layer.orderNodesDict
  rw [List.mergeSort_of_pairwise (by decide +kernel)]
  have : (loadNodes none (Layer.leftoverLoop exWritten (keys exWritten) []) []).isSome = true := by decide +kernel
  obtain ⟨T, hT⟩ := Option.isSome_iff_exists.1 this
  unfold exLoadedAgain
  rw [hT]; rfl

/-- C128, what does not hold: a stage which composes in the editor may, saved and opened again, not compose any more:
the nodes of a loaded layer are ordered by path, no longer by when they were added. -/
theorem C128_success_violation :
    (∀ T ∈ [exUnsaved], ∃ order, GoodNodes T order) ∧ SpecNodes [exUnsaved] ∧
    Reopened [] [exUnsaved] [exLoadedAgain] ∧
    (∀ n ∈ stack [exUnsaved] ['/'], (getAttr n "_instance".toList).hasOpinion = false) ∧
    (exInherit [exUnsaved] "/".toList []).isSome = true ∧ (exInherit [exLoadedAgain] "/".toList []).isSome = false :=
  ⟨fun T hT => ⟨exUnsavedOrder, by rw [List.mem_singleton.1 hT]; exact exUnsaved_good⟩, exUnsaved_spec, exUnsaved_reopened,
    by decide +kernel, by decide +kernel, by decide +kernel⟩

/-- `/A` is an instance of `/B`, which has an attribute with a value and one without. -/
def exSmall : Comp.LayerNodes :=
  [exOpenSpec [] "" ["B", "A"] [], exOpenSpec ["B"] "" [] [(['k'], .str "v".toList), (['z'], .str [])], exOpenSpec ["A"] "/B" [] []]

theorem exSmall_good : GoodNodes exSmall (fun p => if p = ['/'] then ["B".toList, "A".toList] else []) where
  ok := by
    show List.Nodup (keys exSmall)
    decide +kernel
  path := by
    intro p hp
    have : ∀ p ∈ keys exSmall, p ∈ [[], [['B']], [['A']]].map render := by decide +kernel
    obtain ⟨ns, hm, rfl⟩ := List.mem_map.1 (this p hp)
    have hN : ∀ ns ∈ ([[], [['B']], [['A']]] : List (List Str)), Names ns := by unfold Names IsName; decide +kernel
    exact ⟨ns, hN ns hm, rfl⟩
  node := by
    intro p n hn
    have := mem_of_get? hn
    simp only [exSmall, exOpenSpec, List.mem_cons, List.not_mem_nil, or_false, Prod.mk.injEq] at this
    rcases this with ⟨rfl, rfl⟩ | ⟨rfl, rfl⟩ | ⟨rfl, rfl⟩ <;>
    exact ⟨by unfold Dict.Ok; decide +kernel, by rfl, by rfl⟩
  listed := by
    have : ∀ p ∈ keys exSmall, p ≠ Path.WORLD → (if p = ['/'] then ["B".toList, "A".toList] else []).Nodup ∧
      ∀ q ∈ keys exSmall, Path.parentPath q = p → Path.nodeName q ∈ (if p = ['/'] then ["B".toList, "A".toList] else []) := by
      decide +kernel
    exact this

theorem exSmall_spec : SpecNodes [exSmall] where
  ok := by intro l hl; rw [List.mem_singleton.1 hl]; exact exSmall_good.ok
  path := by
    intro l hl p n hm
    rw [List.mem_singleton.1 hl] at hm
    exact exSmall_good.path p (mem_keys.2 ⟨n, hm⟩)
  parent := by
    intro l hl ns n hN hm
    rw [List.mem_singleton.1 hl] at hm
    simp only [exSmall, exOpenSpec, List.mem_cons, List.not_mem_nil, or_false, Prod.mk.injEq] at hm
    rcases hm with ⟨e, rfl⟩ | ⟨e, rfl⟩ | ⟨e, rfl⟩ <;>
    rw [Path.render_inj hN (by unfold Names IsName; decide +kernel) e] <;> rfl
  keys := by
    intro l hl p n hm a ha
    rw [List.mem_singleton.1 hl] at hm
    have : ∀ e ∈ exSmall, ∀ a ∈ ["_instance", "_enabled", "_comment", "_code"].map String.toList, (get? a e.2).isSome = true := by
      decide +kernel
    exact this _ hm a ha

/-- What C128_plain asks for is met by `exSmall`: opened again, `/A` has from `/B` the value of `k`, and `z` without its
empty text. -/
example : ∃ layers' g', Reopened [] [exSmall] layers' ∧
    postProxy (classesOf layers').2
      (sortInstances (classesOf layers').2 (classesOf layers').2 (classesOf layers').1) (classesOf layers').1 = some g' ∧
    ∃ c', get? "/A".toList (classesOf layers').2 = some c' ∧ g'.attr? c' ['k'] = some (.str "v".toList) ∧
      g'.attr? c' ['z'] = some .none ∧ g'.attr? c' ['y'] = none := by
  have hg : ∀ T ∈ [exSmall], ∃ order, GoodNodes T order :=
    fun T hT => ⟨fun p => if p = ['/'] then ["B".toList, "A".toList] else [], by rw [List.mem_singleton.1 hT]; exact exSmall_good⟩
  obtain ⟨layers', h, _⟩ := C128_reopens [] hg
  obtain ⟨g, g', h1, h2, h3⟩ := C128_plain h exSmall_spec hg (by decide +kernel) (by
    intro p c d hc hd
    refine plain_closed (fun c => (get? "/B".toList (classesOf [exSmall]).2) = some c ||
      (get? "/".toList (classesOf [exSmall]).2) = some c) [[], [['B']], [['A']]]
      (by unfold Names IsName; decide +kernel) (by decide +kernel) (by decide +kernel) (instSource_mem hd) ?_
    have : ∀ e ∈ (classesOf [exSmall]).2,
        (instSource (classesOf [exSmall]).1 (classesOf [exSmall]).2 (classesOf [exSmall]).1.bases e.2).all (fun c =>
            (get? "/B".toList (classesOf [exSmall]).2) = some c ||
            (get? "/".toList (classesOf [exSmall]).2) = some c) = true := by decide +kernel
    have := this _ (mem_of_get? hc)
    rw [show instSource _ _ _ (p, c).2 = some d from hd] at this
    simpa using this)
  have hA : get? "/A".toList (classesOf [exSmall]).2 = some 5 := by decide +kernel
  obtain ⟨c', h4, h5, _⟩ := h3 "/A".toList 5 hA
  have hu : ∀ k ∈ [['k'], ['z'], ['y']], UserName [] k := by
    intro k hk
    refine ⟨by simp, ?_, ?_⟩
    · have : ∀ k ∈ [['k'], ['z'], ['y']], k ∉ internalNames := by decide +kernel
      exact this k hk
    · intro m hm pre he
      have : ∀ k ∈ [['k'], ['z'], ['y']], k.length = 1 := by decide +kernel
      have hl := this k hk
      rw [he] at hl
      simp at hl
      omega
  have hval : ∀ k ∈ [['k'], ['z'], ['y']], g.attr? 5 k = get? k [(['k'], Val.str "v".toList), (['z'], .str [])] := by
    have key : ∀ (P : Option Classes) (g : Classes) k v, P = some g → P.map (fun g => g.attr? 5 k) = some v → g.attr? 5 k = v := by
      rintro P g k v rfl hv; exact Option.some.inj hv
    intro k hk
    simp only [List.mem_cons, List.not_mem_nil, or_false] at hk
    rcases hk with rfl | rfl | rfl <;> exact key _ g _ _ h1 (by rfl)
  refine ⟨layers', g', h, h2, c', h4, ?_, ?_, ?_⟩
  · rw [h5 _ (hu _ (by simp)), hval _ (by simp)]; rfl
  · rw [h5 _ (hu _ (by simp)), hval _ (by simp)]; rfl
  · rw [h5 _ (hu _ (by simp)), hval _ (by simp)]; rfl

end Nxt.Props
