import Verif.Model.Composite
import Verif.Props.Reopen
import Verif.Props.ExecSame
import Verif.Spec.ExecReopen
/-!
# Property C138: a graph saved and opened again executes the same nodes
-/
namespace Nxt.Props
open Dict NodeData Mro Spec LayerData Composite
open Inherit hiding kept

namespace ReopenRun
open Reopen

theorem get?_execTable (nodes : Dict Str Nat) (g : Classes) (p : Str) :
    get? p (execTable nodes g) = (get? p nodes).map (fun c =>
      { name := textOf (g.attr c A_NAME)
        parent := textOf (g.attr c A_PARENT)
        childOrder := (names (g.attr c A_CHILD_ORDER)).getD []
        enabled := g.attr c A_ENABLED
        execIn := g.attr c A_EXECUTE_IN }) := by
  unfold execTable
  induction nodes with
  | nil => rfl
  | cons e nodes ih =>
    obtain ⟨q, c⟩ := e
    rw [List.map_cons, get?, get?]
    split
    · rfl
    · exact ih

theorem keys_execTable (nodes : Dict Str Nat) (g : Classes) : keys (execTable nodes g) = keys nodes := by
  unfold execTable keys
  rw [List.map_map]
  rfl

/-- The child order composed of the nodes at a path. -/
def mergedOrder (p : Str) (bases : List (Dict Str Val)) : List Str :=
  bases.reverse.foldl (fun co n => if p = Path.WORLD then co else Lists.listMerger (Comp.childOrder n) co)
    (match bases.getLast? with | some n => Comp.childOrder n | none => [])

theorem own_order (p : Str) (bases : List (Dict Str Val)) :
    get? A_CHILD_ORDER (Comp.compNode p bases).own = some (.list ((mergedOrder p bases).map Val.str)) := by
  unfold Comp.compNode
  simp only []
  rw [get?_set, if_pos rfl]
  unfold mergedOrder
  have : ∀ (bs : List (Dict Str Val)) (own : Dict Str Val) (co : List Str),
      (bs.foldl (Comp.overloadBase p) (own, co)).2 =
        bs.foldl (fun co n => if p = Path.WORLD then co else Lists.listMerger (Comp.childOrder n) co) co := by
    intro bs
    induction bs with
    | nil => intro own co; rfl
    | cons n bs ih => intro own co; exact ih _ _
  rw [this]
  cases bases.getLast? <;> rfl

theorem merged_spec {p : Str} (hp : p ≠ ['/']) {bases : List (Dict Str Val)} (hne : bases ≠ [])
    (hb : ∀ n ∈ bases, (listed n).Nodup) :
    (mergedOrder p bases).Nodup ∧ ∀ x, x ∈ mergedOrder p bases ↔ ∃ n ∈ bases, x ∈ listed n := by
  obtain ⟨w, hw⟩ : ∃ w, bases.getLast? = some w := ⟨_, List.getLast?_eq_some_getLast hne⟩
  have hwm : w ∈ bases := List.mem_of_getLast? hw
  rw [← Comp.childOrder_eq] at *
  obtain ⟨h1, h2, _⟩ := Comp.childOrder_fold p hp [] bases (Comp.childOrder w) (hb w hwm) hb
  have : (bases.reverse.foldl (Comp.overloadBase p) ([], Comp.childOrder w)).2 = mergedOrder p bases := by
    unfold mergedOrder
    rw [hw]
    simp only []
    have : ∀ (bs : List (Dict Str Val)) (own : Dict Str Val) (co : List Str),
        (bs.foldl (Comp.overloadBase p) (own, co)).2 =
          bs.foldl (fun co n => if p = Path.WORLD then co else Lists.listMerger (Comp.childOrder n) co) co := by
      intro bs
      induction bs with
      | nil => intro own co; rfl
      | cons n bs ih => intro own co; exact ih _ _
    exact this _ _ _
  rw [this] at h1 h2
  refine ⟨h1, fun x => (h2 x).trans ⟨?_, .inr⟩⟩
  rintro (h | h)
  · exact ⟨w, hwm, h⟩
  · exact h

theorem merged_world {bases : List (Dict Str Val)} (hb : ∀ n ∈ bases, (listed n).Nodup) :
    (mergedOrder ['/'] bases).Nodup := by
  rw [← Comp.childOrder_eq] at hb
  unfold mergedOrder
  have : ∀ (bs : List (Dict Str Val)) (co : List Str),
      bs.foldl (fun co n => if (['/'] : Str) = Path.WORLD then co else Lists.listMerger (Comp.childOrder n) co) co = co := by
    intro bs
    induction bs with
    | nil => intro co; rfl
    | cons n bs ih => intro co; exact ih co
  rw [this]
  cases h : bases.getLast? with
  | none => exact List.nodup_nil
  | some w => exact hb w (List.mem_of_getLast? h)

theorem merged_same {p : Str} (hp : p ≠ ['/']) {x y : List (Dict Str Val)} (h : Each (fun n n' => listed n = listed n') x y) :
    mergedOrder p x = mergedOrder p y := by
  have hl : (match x.getLast? with | some n => Comp.childOrder n | none => []) =
      (match y.getLast? with | some n => Comp.childOrder n | none => []) := by
    rw [Comp.childOrder_eq]
    induction h with
    | nil => rfl
    | @cons n n' ns ns' h1 h2 ih =>
      cases h2 with
      | nil => exact h1
      | cons h3 h4 => rw [List.getLast?_cons_cons, List.getLast?_cons_cons]; exact ih
  unfold mergedOrder
  rw [hl]
  clear hl
  generalize (match y.getLast? with | some n => Comp.childOrder n | none => []) = co
  rw [Comp.childOrder_eq]
  simp only [List.foldl_reverse]
  induction h with
  | nil => rfl
  | @cons n n' ns ns' h1 h2 ih => rw [List.foldr_cons, List.foldr_cons, ih, h1]

theorem own_name (p : Str) {n : Dict Str Val} {bases : List (Dict Str Val)} :
    get? A_NAME (Comp.compNode p (n :: bases)).own = some (getAttr n A_NAME) := by
  unfold Comp.compNode
  simp only []
  rw [get?_set, if_neg (by decide +kernel)]
  have : ∀ (bs : List (Dict Str Val)) (st : Dict Str Val × List Str), get? A_NAME (bs.foldl (Comp.overloadBase p) st).1 = get? A_NAME st.1 := by
    intro bs
    induction bs with
    | nil => intro st; rfl
    | cons m ms ih =>
      intro st
      rw [List.foldl_cons, ih]
      exact (Comp.get?_overloadAttrs p m st.1 Comp.OVERLOAD (fun _ h => h) A_NAME).2.2 (by decide +kernel) (by decide +kernel)
  rw [this]
  rfl

theorem listed_good {T : Comp.LayerNodes} {order : Str → List Str} (g : GoodNodes T order) {p : Str} {n : Dict Str Val}
    (h : (p, n) ∈ T) : listed n = order p := by
  rw [← Comp.childOrder_eq]
  unfold Comp.childOrder
  rw [(g.node p n (get?_of_mem g.ok h)).2.2, names_map]
  rfl

section
variable {layers : List Comp.LayerNodes} {order : List (Str × Nat)} {g : Classes}

/-- Attributes no arc touches are read from the node itself. -/
theorem read (hs : SpecNodes layers) (ho : order.Perm (classesOf layers).2)
    (hc : postProxy (classesOf layers).2 order (classesOf layers).1 = some g) {p : Str} {c : Nat}
    (hp : get? p (classesOf layers).2 = some c) {k : Str} {v : Val}
    (hv : firstTable k (tablesOf (classesOf layers).1 (classesOf layers).1.bases c) = some v) (hk : Untouched k) :
    g.attr c k = v := by
  obtain ⟨h1, h2, h3, h4, _⟩ := classesOf_ready hs
  have := C72_local_first h1 h2 h3 h4 ho hc (mem_of_get? hp) hv hk
  unfold Classes.attr
  rw [this]
  rfl

theorem read_order (hs : SpecNodes layers) (ho : order.Perm (classesOf layers).2)
    (hc : postProxy (classesOf layers).2 order (classesOf layers).1 = some g) {p : Str} {c : Nat}
    (hp : get? p (classesOf layers).2 = some c) :
    g.attr c A_CHILD_ORDER = .list ((mergedOrder p (stack layers p)).map Val.str) := by
  refine read hs ho hc hp ?_ (by decide +kernel)
  rw [((classesOf_spec hs).2.2.1 p c (mem_of_get? hp)).2]
  unfold firstTable
  rw [List.findSome?_cons, own_order]

theorem read_parent (hs : SpecNodes layers) (ho : order.Perm (classesOf layers).2)
    (hc : postProxy (classesOf layers).2 order (classesOf layers).1 = some g) {ns : List Str} {c : Nat} (hN : Names ns)
    (hp : get? (render ns) (classesOf layers).2 = some c) : g.attr c A_PARENT = .str (parentText ns) :=
  read hs ho hc hp ((classesOf_ready hs).2.2.1 ns c hN (mem_of_get? hp)) (by decide +kernel)

theorem read_name (hs : SpecNodes layers) (hg : ∀ T ∈ layers, ∃ order, GoodNodes T order) (ho : order.Perm (classesOf layers).2)
    (hc : postProxy (classesOf layers).2 order (classesOf layers).1 = some g) {p : Str} {c : Nat}
    (hp : get? p (classesOf layers).2 = some c) : g.attr c A_NAME = .str (Path.nodeName p) := by
  refine read hs ho hc hp ?_ (by decide +kernel)
  obtain ⟨hne, ht⟩ := (classesOf_spec hs).2.2.1 p c (mem_of_get? hp)
  rw [ht]
  obtain ⟨n, t, e⟩ := List.exists_cons_of_ne_nil hne
  obtain ⟨l, hl, hm⟩ := mem_stack (n := n) (p := p) (layers := layers) (by rw [e]; simp)
  obtain ⟨od, hgood⟩ := hg l hl
  unfold firstTable
  rw [List.findSome?_cons, e, own_name, (hgood.node p n (get?_of_mem hgood.ok hm)).2.1]

/-- The composite nodes are a well formed table. -/
theorem table_ok (h : Tidy layers) (ho : order.Perm (classesOf layers).2)
    (hc : postProxy (classesOf layers).2 order (classesOf layers).1 = some g) : TreeOk (execTable (classesOf layers).2 g) := by
  have hok : Dict.Ok (classesOf layers).2 := (classesOf_spec h.spec).1.ok
  have hok' : Dict.Ok (execTable (classesOf layers).2 g) := by
    unfold Dict.Ok; rw [keys_execTable]; exact hok
  refine ⟨hok', fun q n hm => ?_, fun q n hm => ?_⟩
  · have hq := get?_of_mem hok' hm
    rw [get?_execTable] at hq
    obtain ⟨c, hc', rfl⟩ := Option.map_eq_some_iff.1 hq
    obtain ⟨ns, hN, rfl⟩ := (classesOf_ready h.spec).2.1 q c (mem_of_get? hc')
    simp only [read_name h.spec h.good ho hc hc', read_parent h.spec ho hc hN hc', textOf]
    rcases Path.eq_nil_or_snoc ns with rfl | ⟨ms, x, rfl⟩
    · exact .inl ⟨rfl, rfl, rfl⟩
    · refine .inr ⟨ms, x, hN, rfl, ?_, (C09_parent_name_join ms x hN).2.1⟩
      unfold parentText
      rw [if_neg (by simp), List.dropLast_concat]
  · have hq := get?_of_mem hok' hm
    rw [get?_execTable] at hq
    obtain ⟨c, hc', rfl⟩ := Option.map_eq_some_iff.1 hq
    simp only [read_order h.spec ho hc hc', names_map, Option.getD_some]
    by_cases hw : q = ['/']
    · subst hw
      exact merged_world fun n hn => (h.world n hn).2.2
    · refine (merged_spec hw ((classesOf_spec h.spec).2.2.1 q c (mem_of_get? hc')).1 fun n hn => ?_).1
      obtain ⟨l, hl, hm⟩ := mem_stack hn
      obtain ⟨od, hgood⟩ := h.good l hl
      rw [listed_good hgood hm]
      exact (hgood.listed q (mem_keys_of_mem hm) hw).1

/-- Every node but the roots is in the child order of its parent. -/
theorem table_listed (h : Tidy layers) (ho : order.Perm (classesOf layers).2)
    (hc : postProxy (classesOf layers).2 order (classesOf layers).1 = some g) : AllListed (execTable (classesOf layers).2 g) := by
  intro ns x n hN h0 hx hn
  rw [keys_execTable] at hx
  rw [get?_execTable] at hn
  obtain ⟨c, hc', rfl⟩ := Option.map_eq_some_iff.1 hn
  simp only [read_order h.spec ho hc hc', names_map, Option.getD_some]
  have hw : render ns ≠ ['/'] := fun e => h0 ((Path.render_eq_world (Path.names_append.1 hN).1).1 e)
  refine ((merged_spec hw ((classesOf_spec h.spec).2.2.1 _ c (mem_of_get? hc')).1 fun n hn => ?_).2 x).2 ?_
  · obtain ⟨l, hl, hm⟩ := mem_stack hn
    obtain ⟨od, hgood⟩ := h.good l hl
    rw [listed_good hgood hm]
    exact (hgood.listed _ (mem_keys_of_mem hm) hw).1
  · obtain ⟨d, hd⟩ := mem_keys.1 hx
    obtain ⟨m, t, e⟩ := List.exists_cons_of_ne_nil ((classesOf_spec h.spec).2.2.1 _ d hd).1
    obtain ⟨l, hl, hm⟩ := mem_stack (n := m) (p := render (ns ++ [x])) (layers := layers) (by rw [e]; simp)
    obtain ⟨od, hgood⟩ := h.good l hl
    have hk := h.closed l hl ns x hN h0 (mem_keys_of_mem hm)
    obtain ⟨m', hm'⟩ := mem_keys.1 hk
    refine ⟨m', List.mem_filterMap.2 ⟨l, hl, get?_of_mem hgood.ok hm'⟩, ?_⟩
    rw [listed_good hgood hm']
    have := (hgood.listed _ hk hw).2 _ (mem_keys_of_mem hm) (C09_parent_name_join ns x hN).1
    rw [(C09_parent_name_join ns x hN).2.1] at this
    exact this

end

/-! ## Opened again -/

/-- One layer saved and loaded is good again, with the child orders it had. -/
theorem good_again {b : List Str} {file : Option Str} {T T' : Comp.LayerNodes} {order : Str → List Str}
    (g : GoodNodes T order) (hT : constructNodes file (nodesSaveData b T) = some T') :
    ∃ order', GoodNodes T' order' ∧ ∀ p ∈ keys T, p ≠ ['/'] → order' p = order p := by
  obtain ⟨T1, h1, h2, h3, _⟩ := C57_nodes_round_trip b file T order g
  rw [hT] at h1
  obtain rfl := Option.some.inj h1
  have hok : Dict.Ok T' := h2.nodup_iff.2 g.ok
  have key : ∀ p n, get? p T = some n → ∃ n', get? p T' = some n' ∧ Dict.Ok n' ∧ getAttr n' A_NAME = .str (Path.nodeName p) ∧
      ∃ co : List Str, getAttr n' A_CHILD_ORDER = .list (co.map Val.str) ∧ co.Nodup ∧ (p ≠ ['/'] → co = order p) := by
    intro p n hp
    obtain ⟨n', n0, e1, e2, e3, e4, e5, co, e6, e7⟩ := h3 p n hp
    obtain ⟨m1, m2, m3⟩ := g.node p n hp
    obtain ⟨n1, f1, f2, _, _, _, f6, f7, _⟩ := C25_round_trip b n file p (order p) m1 m3
    rw [e2] at f1
    obtain rfl := Option.some.inj f1
    have hk : p ∈ keys T := mem_keys_of_mem (mem_of_get? hp)
    refine ⟨n', e1, ?_, ?_, co, getAttr_of_get? e6, e7, fun hw => ?_⟩
    · unfold Dict.Ok; rw [e5]; exact f2
    · rw [getAttr_of_get? ((e3 A_NAME (by decide +kernel)).trans f7)]
    · have hn := e4 hw
      subst hn
      rw [f6, saved_name m2 (g.path p hk) hw, if_pos (by decide +kernel),
        (dedup_spec _ [] List.nodup_nil).2.2 (g.listed p hk hw).1 (by simp), List.nil_append] at e6
      have := congrArg names (Option.some.inj e6)
      rw [names_map, names_map] at this
      exact (Option.some.inj this).symm
  refine ⟨fun p => (names (getAttr ((get? p T').getD []) A_CHILD_ORDER)).getD [], ⟨hok, ?_, ?_, ?_⟩, ?_⟩
  · exact fun p hp => g.path p (h2.mem_iff.1 hp)
  · intro p n' hp
    obtain ⟨n, hn⟩ := Option.isSome_iff_exists.1 (get?_isSome.2 (h2.mem_iff.1 (mem_keys_of_mem (mem_of_get? hp))))
    obtain ⟨n1, k1, k2, k3, co, k4, _⟩ := key p n hn
    rw [hp] at k1
    obtain rfl := Option.some.inj k1
    refine ⟨k2, k3, ?_⟩
    rw [hp, Option.getD_some, k4, names_map]
    rfl
  · intro p hp hw
    have hp' := h2.mem_iff.1 hp
    obtain ⟨n, hn⟩ := Option.isSome_iff_exists.1 (get?_isSome.2 hp')
    obtain ⟨n1, k1, _, _, co, k4, k5, k6⟩ := key p n hn
    rw [k1, Option.getD_some, k4, names_map, Option.getD_some]
    refine ⟨k5, fun q hq hqp => ?_⟩
    rw [k6 hw]
    exact (g.listed p hp' hw).2 q (h2.mem_iff.1 hq) hqp
  · intro p hp hw
    obtain ⟨n, hn⟩ := Option.isSome_iff_exists.1 (get?_isSome.2 hp)
    obtain ⟨n1, k1, _, _, co, k4, k5, k6⟩ := key p n hn
    simp only []
    rw [k1, Option.getD_some, k4, names_map, Option.getD_some]
    exact k6 hw

theorem reopened_mem {b : List Str} {layers layers' : List Comp.LayerNodes} (h : Reopened b layers layers') {T' : Comp.LayerNodes}
    (hT : T' ∈ layers') : ∃ T ∈ layers, ∃ file, constructNodes file (nodesSaveData b T) = some T' := by
  induction h with
  | nil => cases hT
  | @cons file T T1 ls ls' h1 _ ih =>
    rcases List.mem_cons.1 hT with rfl | hT
    · exact ⟨T, List.mem_cons_self, file, h1⟩
    · obtain ⟨T2, h2, h3⟩ := ih hT
      exact ⟨T2, List.mem_cons_of_mem _ h2, h3⟩

theorem tidy_again {b : List Str} {layers layers' : List Comp.LayerNodes} (h : Reopened b layers layers') (t : Tidy layers) :
    Tidy layers' := by
  have key : ∀ T' ∈ layers', ∃ T ∈ layers, ∃ order order' file, GoodNodes T order ∧ GoodNodes T' order' ∧
      constructNodes file (nodesSaveData b T) = some T' := by
    intro T' hT'
    obtain ⟨T, hT, file, hc⟩ := reopened_mem h hT'
    obtain ⟨order, hgood⟩ := t.good T hT
    obtain ⟨order', hg', _⟩ := good_again hgood hc
    exact ⟨T, hT, order, order', file, hgood, hg', hc⟩
  have node : ∀ T' ∈ layers', ∀ p n', (p, n') ∈ T' → ∃ T ∈ layers, ∃ n, (p, n) ∈ T ∧ getAttr n A_NAME = .str (Path.nodeName p) ∧
      ∀ a ∈ TRACKED, get? a n' = some (keptInternal n a) := by
    intro T' hT' p n' hm
    obtain ⟨T, hT, order, order', file, g1, g2, hc⟩ := key T' hT'
    obtain ⟨_, h2, h3⟩ := layer_reopened g1 hc
    obtain ⟨n, hn⟩ := Option.isSome_iff_exists.1 (get?_isSome.2 (h2.mem_iff.1 (mem_keys_of_mem hm)))
    obtain ⟨n1, e1, _, e3, _⟩ := h3 p n hn
    rw [get?_of_mem g2.ok hm] at e1
    obtain rfl := Option.some.inj e1
    exact ⟨T, hT, n, mem_of_get? hn, (g1.node p n hn).2.1, e3⟩
  refine ⟨reopened_specs h t.good, fun T' hT' => ?_, fun T' hT' p n' hm => ?_, fun T' hT' ns x hN h0 hx => ?_, fun n' hn' => ?_,
    fun T' hT' p n' hm => ?_⟩
  · obtain ⟨_, _, _, order', _, _, g2, _⟩ := key T' hT'
    exact ⟨order', g2⟩
  · obtain ⟨_, _, n, _, _, h1⟩ := node T' hT' p n' hm
    rw [h1 _ (by decide +kernel), h1 _ (by decide +kernel)]
    exact ⟨rfl, rfl⟩
  · obtain ⟨T, hT, order, order', file, g1, g2, hc⟩ := key T' hT'
    have hp := (layer_reopened g1 hc).2.1
    exact hp.mem_iff.2 (t.closed T hT ns x hN h0 (hp.mem_iff.1 hx))
  · obtain ⟨T', hT', hm⟩ := mem_stack hn'
    obtain ⟨T, hT, n, hn, hname, h1⟩ := node T' hT' _ n' hm
    have hs : savedAttrs n = WORLD_SAVED := by
      unfold savedAttrs; rw [hname]; rfl
    have hd : ∀ a ∈ TRACKED, a ∉ WORLD_SAVED → (getAttr n' a).hasOpinion = false := by
      intro a ha hna
      rw [getAttr_of_get? (h1 a ha), keptInternal, hs, if_neg (fun h => hna h.1)]
      exact default_opinion ha
    refine ⟨hd _ (by decide +kernel) (by decide +kernel), hd _ (by decide +kernel) (by decide +kernel), ?_⟩
    obtain ⟨T2, hT2, order, order', file, g1, g2, hc⟩ := key T' hT'
    obtain ⟨T1, k1, k2, k3, _⟩ := C57_nodes_round_trip b file T2 order g1
    rw [hc] at k1
    obtain rfl := Option.some.inj k1
    obtain ⟨m, hm2⟩ := Option.isSome_iff_exists.1 (get?_isSome.2 (k2.mem_iff.1 (mem_keys_of_mem hm)))
    obtain ⟨n1, n0, e1, _, _, _, _, co, e6, e7⟩ := k3 _ m hm2
    rw [get?_of_mem g2.ok hm] at e1
    obtain rfl := Option.some.inj e1
    rw [← Comp.childOrder_eq]
    unfold Comp.childOrder
    rw [getAttr_of_get? e6, names_map]
    exact e7
  · obtain ⟨_, _, n, _, _, h1⟩ := node T' hT' p n' hm
    rw [getAttr_of_get? (h1 _ (by decide +kernel)), keptInternal]
    split
    · rename_i ho
      intro e
      rw [show getAttr n "_enabled".toList = .list [] from e] at ho
      exact absurd ho.2 (by decide)
    · rw [show internalDefault "_enabled".toList = .none from rfl]
      intro e
      cases e

theorem stack_orders {b : List Str} {layers layers' : List Comp.LayerNodes} (h : Reopened b layers layers')
    (hg : ∀ T ∈ layers, ∃ order, GoodNodes T order) {p : Str} (hp : p ≠ ['/']) :
    Each (fun n n' => listed n = listed n') (stack layers p) (stack layers' p) := by
  induction h with
  | nil => exact .nil
  | @cons file T T' ls ls' hT _ ih =>
    have ih := ih fun x hx => hg x (List.mem_cons_of_mem _ hx)
    obtain ⟨order, hgood⟩ := hg T List.mem_cons_self
    obtain ⟨_, h2, h3⟩ := layer_reopened hgood hT
    obtain ⟨order', g', hsame⟩ := good_again hgood hT
    unfold stack at ih ⊢
    rw [List.filterMap_cons, List.filterMap_cons]
    cases e : get? p T with
    | none =>
      have : get? p T' = none := by
        rw [get?_eq_none] at e ⊢
        exact fun hm => e (h2.mem_iff.1 hm)
      rw [this]; exact ih
    | some n =>
      obtain ⟨n', e', _⟩ := h3 p n e
      rw [e']
      refine .cons ?_ ih
      rw [listed_good hgood (mem_of_get? e), listed_good g' (mem_of_get? e'),
        hsame p (mem_keys_of_mem (mem_of_get? e)) hp]

theorem stack_carried {b : List Str} {layers layers' : List Comp.LayerNodes} (h : Reopened b layers layers')
    (hg : ∀ T ∈ layers, ∃ order, GoodNodes T order) {p : Str} (hp : p ≠ ['/']) :
    Each (Carried b TRACKED) (stack layers p) (stack layers' p) := by
  have := reopened_stack h hg p
  generalize stack layers p = x at this
  generalize stack layers' p = y at this
  induction this with
  | nil => exact .nil
  | cons h1 _ ih => exact .cons ⟨h1.1, h1.2.2.1 hp⟩ ih

/-- An attribute kept by every spec is read alike from a node and from the same node opened again. -/
theorem read_alike {b : List Str} {layers layers' : List Comp.LayerNodes} (h : Reopened b layers layers') (t : Tidy layers)
    {order order' : List (Str × Nat)} (ho : order.Perm (classesOf layers).2) (ho' : order'.Perm (classesOf layers').2)
    {g g' : Classes} (hc : postProxy (classesOf layers).2 order (classesOf layers).1 = some g)
    (hc' : postProxy (classesOf layers').2 order' (classesOf layers').1 = some g') {p : Str} (hw : p ≠ ['/']) {c c' : Nat}
    (hp : get? p (classesOf layers).2 = some c) (hp' : get? p (classesOf layers').2 = some c') {a : Str}
    (ha : a ∈ [A_EXECUTE_IN, A_START]) : Alike (g.attr c a) (g'.attr c' a) := by
  have t' := tidy_again h t
  have hov : a ∈ Comp.OVERLOAD ∧ a ∈ TRACKED ∧ Untouched a := by
    have : ∀ a ∈ [A_EXECUTE_IN, A_START], a ∈ Comp.OVERLOAD ∧ a ∈ TRACKED ∧ Untouched a := by decide +kernel
    exact this a ha
  have hk : ∀ {ls}, Tidy ls → ∀ l ∈ ls, ∀ p n, (p, n) ∈ l → (get? a n).isSome := by
    intro ls t l hl p n hm
    have := t.attrs l hl p n hm
    simp only [List.mem_cons, List.not_mem_nil, or_false] at ha
    rcases ha with rfl | rfl
    · exact this.1
    · exact this.2
  obtain ⟨v, h1, _, h2⟩ := first_opinion_of t.spec (mem_of_get? hp) hov.1 (hk t)
  obtain ⟨w, h3, _, h4⟩ := first_opinion_of t'.spec (mem_of_get? hp') hov.1 (hk t')
  rw [read t.spec ho hc hp h1 hov.2.2, read t'.spec ho' hc' hp' h3 hov.2.2]
  have := strongest_akin (stack_carried h t.good hw) hov.2.1
  generalize strongest (stack layers p) a = x at this h2
  generalize strongest (stack layers' p) a = y at this h4
  cases this with
  | none => exact .inr ⟨h2, h4⟩
  | some h5 => rw [h2, h4]; exact h5

theorem chosen_not_empty {layers : List Comp.LayerNodes} (t : Tidy layers) {c : Nat} {v : Val}
    (h : Chosen (classesOf layers).1 (classesOf layers).2 (classesOf layers).1.bases A_ENABLED c v) :
    ∀ p, (p, c) ∈ (classesOf layers).2 → v ≠ .list [] := by
  have key : ∀ {p c v}, (p, c) ∈ (classesOf layers).2 →
      firstTable A_ENABLED (tablesOf (classesOf layers).1 (classesOf layers).1.bases c) = some v → v ≠ .list [] := by
    intro p c v hc hv
    obtain ⟨w, h1, ⟨n, hn, h2⟩, _⟩ := first_opinion_of t.spec hc (a := A_ENABLED) (by decide +kernel)
      (fun l hl p n hm => t.spec.keys l hl p n hm _ (by decide +kernel))
    rw [hv] at h1
    obtain rfl := Option.some.inj h1
    obtain ⟨l, hl, hm⟩ := mem_stack hn
    rw [h2]
    exact t.enabled l hl p n hm
  induction h with
  | here h1 _ => exact fun p hp => key hp h1
  | last h1 _ => exact fun p hp => key hp h1
  | next _ _ h3 _ ih =>
    intro p hp
    obtain ⟨q, hq⟩ := instSource_mem h3
    exact ih q hq

/-- The composite nodes before and after, for the order of execution. -/
theorem same_tree {b : List Str} {layers layers' : List Comp.LayerNodes} (h : Reopened b layers layers') (t : Tidy layers)
    {table table' : List (Str × Nat)} (ht : table.Perm (classesOf layers).2) (ht' : table'.Perm (classesOf layers').2) {g g' : Classes}
    (hc : postProxy (classesOf layers).2 (sortInstances (classesOf layers).2 table (classesOf layers).1) (classesOf layers).1 = some g)
    (hc' : postProxy (classesOf layers').2 (sortInstances (classesOf layers').2 table' (classesOf layers').1) (classesOf layers').1 = some g') :
    SameTree (execTable (classesOf layers).2 g) (execTable (classesOf layers').2 g') := by
  have t' := tidy_again h t
  have hw := fun n hn => (t.world n hn).1
  have ho : (sortInstances (classesOf layers).2 table (classesOf layers).1).Perm (classesOf layers).2 :=
    (C16_stable_sort _ table).1.trans ht
  have ho' : (sortInstances (classesOf layers').2 table' (classesOf layers').1).Perm (classesOf layers').2 :=
    (C16_stable_sort _ table').1.trans ht'
  have hpaths := (C128_attributes_partial h t.spec t.good hw ho ho' hc hc').1
  have hen : ∀ {ls : List Comp.LayerNodes} (_ : Tidy ls) {tb : List (Str × Nat)} (_ : tb.Perm (classesOf ls).2) {g : Classes}
      (_ : postProxy (classesOf ls).2 (sortInstances (classesOf ls).2 tb (classesOf ls).1) (classesOf ls).1 = some g)
      {p : Str} {c : Nat} (_ : get? p (classesOf ls).2 = some c), g.attr c A_ENABLED ≠ .list [] := by
    intro ls t tb ht g hc p c hp
    obtain ⟨h1, h2, h3, h4, h5⟩ := classesOf_ready t.spec
    have hno : ∀ n ∈ stack ls ['/'], get? "_instance".toList n ≠ some (.str ['/']) := by
      intro n hn he
      have := (t.world n hn).1
      rw [getAttr_of_get? he] at this
      cases this
    exact chosen_not_empty t (C75_composed_partial h1 h2 h3 h4 (world_instance t.spec hno) ht hc (a := A_ENABLED)
      (by decide +kernel) (h5 _ (by decide +kernel)) (mem_of_get? hp)) p (mem_of_get? hp)
  refine ⟨fun p => ?_, fun p n m hp hn hm => ?_, fun p => ?_⟩
  · rw [keys_execTable, keys_execTable, ← get?_isSome, ← get?_isSome, hpaths p]
  · rw [get?_execTable] at hn hm
    obtain ⟨c, e1, rfl⟩ := Option.map_eq_some_iff.1 hn
    obtain ⟨c', e2, rfl⟩ := Option.map_eq_some_iff.1 hm
    simp only [read_order t.spec ho hc e1, read_order t'.spec ho' hc' e2, names_map, Option.getD_some]
    refine ⟨merged_same hp (stack_orders h t.good hp), fun s => ?_⟩
    rcases read_alike h t ho ho' hc hc' hp e1 e2 (a := A_EXECUTE_IN) (by simp) with e | ⟨e, e'⟩
    · rw [e]
    · constructor
      · intro he; rw [he] at e; cases e
      · intro he; rw [he] at e'; cases e'
  · unfold Off
    rw [get?_execTable, get?_execTable]
    have := hpaths p
    cases e1 : get? p (classesOf layers).2 with
    | none =>
      rw [e1] at this
      cases e2 : get? p (classesOf layers').2 with
      | none => simp
      | some c' => rw [e2] at this; cases this
    | some c =>
      rw [e1] at this
      cases e2 : get? p (classesOf layers').2 with
      | none => rw [e2] at this; cases this
      | some c' =>
        have hal := C128_composed_partial h t.spec t.good hw ht ht' hc hc' e1 e2 (x := "_enabled".toList) (by simp)
          (fun _ n hn => (t.world n hn).2.1)
        have n1 := hen t ht hc e1
        have n2 := hen t' ht' hc' e2
        change Alike (g.attr c A_ENABLED) (g'.attr c' A_ENABLED) at hal
        simp only [Option.map_some, Option.some.injEq, exists_eq_left']
        rcases hal with e | ⟨e, e'⟩
        · rw [e]
        · have hnone : ∀ v : Val, v.hasOpinion = false → v ≠ .list [] → v = .none := by
            intro v h1 h2
            unfold Val.hasOpinion at h1
            split at h1
            · rfl
            · exact absurd rfl h2
            · cases h1
          rw [hnone _ e n1, hnone _ e' n2]

end ReopenRun
open ReopenRun

/-- C138: what was saved of tidy layers loads again, as tidy layers. -/
theorem C138_tidy (b : List Str) {layers : List Comp.LayerNodes} (t : Tidy layers) :
    (∃ layers', Reopened b layers layers') ∧ ∀ layers', Reopened b layers layers' → Tidy layers' :=
  ⟨let ⟨l, h, _⟩ := C128_reopens b t.good; ⟨l, h⟩, fun _ h => tidy_again h t⟩

/-- C138: a graph saved and opened again executes, from any node, the same nodes in the same order, if both compose and
no two roots execute after the same one; the nodes may be found in any order.  Missing: graphs with two such roots, and
that the opened graph composes (`C128_success_violation`). -/
theorem C138_order_partial {b : List Str} {layers layers' : List Comp.LayerNodes} (h : Reopened b layers layers') (t : Tidy layers)
    {table table' : List (Str × Nat)} (ht : table.Perm (classesOf layers).2) (ht' : table'.Perm (classesOf layers').2) {g g' : Classes}
    (hc : postProxy (classesOf layers).2 (sortInstances (classesOf layers).2 table (classesOf layers).1) (classesOf layers).1 = some g)
    (hc' : postProxy (classesOf layers').2 (sortInstances (classesOf layers').2 table' (classesOf layers').1) (classesOf layers').1 = some g')
    (O : OneNext (execTable (classesOf layers).2 g)) {ka kb : Str → Tree.Nodes} (KA : KidsOk (execTable (classesOf layers).2 g) ka)
    (KB : KidsOk (execTable (classesOf layers').2 g') kb) (fuel : Nat) (start : Str) :
    Exec.execOrder (execTable (classesOf layers).2 g) ka fuel start =
      Exec.execOrder (execTable (classesOf layers').2 g') kb fuel start :=
  have ho := (C16_stable_sort _ table).1.trans ht
  have ho' := (C16_stable_sort _ table').1.trans ht'
  C137_order_partial (table_ok t ho hc) (table_ok (tidy_again h t) ho' hc') (same_tree h t ht ht' hc hc') (table_listed t ho hc) O
    KA KB fuel start

/-- C138: and when every node has but one start point to begin with, executing without a given node runs the same. -/
theorem C138_execute_partial {σ : Type} {b : List Str} {layers layers' : List Comp.LayerNodes} (h : Reopened b layers layers')
    (t : Tidy layers)
    {table table' : List (Str × Nat)} (ht : table.Perm (classesOf layers).2) (ht' : table'.Perm (classesOf layers').2) {g g' : Classes}
    (hc : postProxy (classesOf layers).2 (sortInstances (classesOf layers).2 table (classesOf layers).1) (classesOf layers).1 = some g)
    (hc' : postProxy (classesOf layers').2 (sortInstances (classesOf layers').2 table' (classesOf layers').1) (classesOf layers').1 = some g')
    (O : OneNext (execTable (classesOf layers).2 g)) {ka kb : Str → Tree.Nodes} (KA : KidsOk (execTable (classesOf layers).2 g) ka)
    (KB : KidsOk (execTable (classesOf layers').2 g') kb) (fuel : Nat)
    (h1 : ∀ p q, p ≠ ['/'] → q ≠ ['/'] → (startPoint (classesOf layers).2 g p).truthy = true →
      (startPoint (classesOf layers).2 g q).truthy = true → p = q)
    (look : σ → Str → Option Val) (run : Str → σ → Exec.Times → Exec.Outcome × σ × Exec.Times) (clock : σ → Int)
    (arg : Start.Arg) (s : σ) (ts : Exec.Times) :
    Start.execute (execTable (classesOf layers).2 g) ka (startPoint (classesOf layers).2 g) fuel look run clock arg s ts =
      Start.execute (execTable (classesOf layers').2 g') kb (startPoint (classesOf layers').2 g') fuel look run clock arg s ts := by
  have ho := (C16_stable_sort (fun pc : Str × Nat => (trace (classesOf layers).2 (classesOf layers).1 pc.1).length) table).1.trans ht
  have ho' := (C16_stable_sort (fun pc : Str × Nat => (trace (classesOf layers').2 (classesOf layers').1 pc.1).length) table').1.trans ht'
  have S := same_tree h t ht ht' hc hc'
  refine C137_start_partial (table_ok t ho hc) (table_ok (tidy_again h t) ho' hc') S (table_listed t ho hc) O
    KA KB fuel _ _ (fun p hp hw => ?_) (fun p q _ _ => h1 p q) look run clock arg s ts
  have hp' := (S.paths p).1 hp
  rw [keys_execTable] at hp hp'
  obtain ⟨c, e1⟩ := Option.isSome_iff_exists.1 (get?_isSome.2 hp)
  obtain ⟨c', e2⟩ := Option.isSome_iff_exists.1 (get?_isSome.2 hp')
  unfold startPoint
  rw [e1, e2]
  simp only []
  rcases read_alike h t ho ho' hc hc' hw e1 e2 (a := A_START) (by simp) with e | ⟨e, e'⟩
  · rw [e]
  · have : ∀ v : Val, v.hasOpinion = false → v.truthy = false := by
      intro v hv
      unfold Val.hasOpinion at hv
      split at hv
      · rfl
      · rfl
      · cases hv
    rw [this _ e, this _ e']

/-- C138: if what is instanced is always plain (neither an instance itself nor below one), both graphs compose, and
execute the same nodes in the same order. -/
theorem C138_plain {b : List Str} {layers layers' : List Comp.LayerNodes} (h : Reopened b layers layers') (t : Tidy layers)
    (hplain : ∀ p c d, get? p (classesOf layers).2 = some c →
      instSource (classesOf layers).1 (classesOf layers).2 (classesOf layers).1.bases c = some d →
      Plain (classesOf layers).1 (classesOf layers).2 (classesOf layers).1.bases d)
    (hone : ∀ p q n m s, p ≠ q → n ∈ stack layers p → m ∈ stack layers q → getAttr n "_execute_in".toList = .str s →
      getAttr m "_execute_in".toList ≠ .str s) :
    ∃ g g', postProxy (classesOf layers).2
        (sortInstances (classesOf layers).2 (classesOf layers).2 (classesOf layers).1) (classesOf layers).1 = some g ∧
      postProxy (classesOf layers').2
        (sortInstances (classesOf layers').2 (classesOf layers').2 (classesOf layers').1) (classesOf layers').1 = some g' ∧
      ∀ fuel start, Exec.execOrder (execTable (classesOf layers).2 g)
          (Tree.scan (fun a b => a == b) (execTable (classesOf layers).2 g)) fuel start =
        Exec.execOrder (execTable (classesOf layers').2 g')
          (Tree.scan (fun a b => a == b) (execTable (classesOf layers').2 g')) fuel start := by
  obtain ⟨g, g', h1, h2, _⟩ := C128_plain h t.spec t.good (fun n hn => (t.world n hn).1) hplain
  refine ⟨g, g', h1, h2, fun fuel start => ?_⟩
  refine C138_order_partial h t (List.Perm.refl _) (List.Perm.refl _) h1 h2 ?_ (C46_scan _ _ (by simp)) (C46_scan _ _ (by simp)) fuel start
  have ho := (C16_stable_sort (fun pc : Str × Nat => (trace (classesOf layers).2 (classesOf layers).1 pc.1).length)
    (classesOf layers).2).1
  have key : ∀ p n s, get? p (execTable (classesOf layers).2 g) = some n → n.execIn = .str s →
      ∃ m ∈ stack layers p, getAttr m "_execute_in".toList = .str s := by
    intro p n s hp he
    rw [get?_execTable] at hp
    obtain ⟨c, hc, rfl⟩ := Option.map_eq_some_iff.1 hp
    obtain ⟨v, k1, ⟨m, hm, k2⟩, _⟩ := Reopen.first_opinion_of t.spec (mem_of_get? hc) (a := A_EXECUTE_IN) (by decide +kernel)
      (fun l hl p n hm => (t.attrs l hl p n hm).1)
    have := read t.spec ho h1 hc k1 (by decide +kernel)
    change g.attr c A_EXECUTE_IN = .str s at he
    rw [this] at he
    exact ⟨m, hm, by rw [← he, k2]; rfl⟩
  intro p n q m s hp hq _ _ e1 e2
  obtain ⟨n', hn', f1⟩ := key p n s hp e1
  obtain ⟨m', hm', f2⟩ := key q m s hq e2
  cases Classical.em (p = q) with
  | inl e => exact e
  | inr e => exact absurd f2 (hone p q n' m' s e hn' hm' f1)

/-! ## Examples -/

/-- `/c` executes after `/a`; `/b` as well, or after `/c`. -/
def exRuns (two : Bool) : Comp.LayerNodes :=
  [exOpenSpec [] "" ["c", "b", "a"] [(A_EXECUTE_IN, .none), (A_START, .none)],
   exOpenSpec ["c"] "" [] [(A_EXECUTE_IN, .str "/a".toList), (A_START, .none)],
   exOpenSpec ["b"] "" [] [(A_EXECUTE_IN, .str (if two then "/a" else "/c").toList), (A_START, .none)],
   exOpenSpec ["a"] "" ["y", "x"] [(A_EXECUTE_IN, .none), (A_START, .bool true)],
   exOpenSpec ["a", "y"] "" [] [(A_EXECUTE_IN, .none), (A_START, .none)],
   exOpenSpec ["a", "x"] "" [] [(A_EXECUTE_IN, .none), (A_START, .none)]]

def exRunsOrder (p : Str) : List Str :=
  (get? p [("/".toList, ["c".toList, "b".toList, "a".toList]), ("/a".toList, ["y".toList, "x".toList])]).getD []

def exRunsNames : List (List Str) := [[], [['c']], [['b']], [['a']], [['a'], ['y']], [['a'], ['x']]]

theorem exRuns_names {ns : List Str} (h : ns ∈ exRunsNames) : Names ns := by
  have : ∀ ns ∈ exRunsNames, Names ns := by unfold Names IsName; decide +kernel
  exact this ns h

theorem exRuns_path {two : Bool} {p : Str} (h : p ∈ keys (exRuns two)) : ∃ ns ∈ exRunsNames, p = render ns := by
  have : ∀ two, ∀ p ∈ keys (exRuns two), p ∈ exRunsNames.map render := by decide +kernel
  obtain ⟨ns, hm, e⟩ := List.mem_map.1 (this two p h)
  exact ⟨ns, hm, e.symm⟩

theorem exRuns_good (two : Bool) : GoodNodes (exRuns two) exRunsOrder where
  ok := by
    have : ∀ two, List.Nodup (keys (exRuns two)) := by decide +kernel
    exact this two
  path := fun p hp => let ⟨ns, h, e⟩ := exRuns_path hp; ⟨ns, exRuns_names h, e⟩
  node := by
    intro p n hn
    have := mem_of_get? hn
    simp only [exRuns, exOpenSpec, List.mem_cons, List.not_mem_nil, or_false, Prod.mk.injEq] at this
    cases two <;>
    rcases this with ⟨rfl, rfl⟩ | ⟨rfl, rfl⟩ | ⟨rfl, rfl⟩ | ⟨rfl, rfl⟩ | ⟨rfl, rfl⟩ | ⟨rfl, rfl⟩ <;>
    exact ⟨by unfold Dict.Ok; decide +kernel, by rfl, by rfl⟩
  listed := by
    have : ∀ two, ∀ p ∈ keys (exRuns two), p ≠ Path.WORLD → (exRunsOrder p).Nodup ∧
      ∀ q ∈ keys (exRuns two), Path.parentPath q = p → Path.nodeName q ∈ exRunsOrder p := by decide +kernel
    exact this two

theorem exRuns_spec (two : Bool) : SpecNodes [exRuns two] where
  ok := by intro l hl; rw [List.mem_singleton.1 hl]; exact (exRuns_good two).ok
  path := by
    intro l hl p n hm
    rw [List.mem_singleton.1 hl] at hm
    exact (exRuns_good two).path p (mem_keys.2 ⟨n, hm⟩)
  parent := by
    intro l hl ns n hN hm
    rw [List.mem_singleton.1 hl] at hm
    simp only [exRuns, exOpenSpec, List.mem_cons, List.not_mem_nil, or_false, Prod.mk.injEq] at hm
    rcases hm with ⟨e, rfl⟩ | ⟨e, rfl⟩ | ⟨e, rfl⟩ | ⟨e, rfl⟩ | ⟨e, rfl⟩ | ⟨e, rfl⟩ <;>
    rw [Path.render_inj hN (by unfold Names IsName; decide +kernel) e] <;> rfl
  keys := by
    intro l hl p n hm a ha
    rw [List.mem_singleton.1 hl] at hm
    have : ∀ two, ∀ e ∈ exRuns two, ∀ a ∈ ["_instance", "_enabled", "_comment", "_code"].map String.toList,
        (get? a e.2).isSome = true := by decide +kernel
    exact this two _ hm a ha

theorem exRuns_tidy (two : Bool) : Tidy [exRuns two] where
  spec := exRuns_spec two
  good := fun T hT => ⟨exRunsOrder, by rw [List.mem_singleton.1 hT]; exact exRuns_good two⟩
  attrs := by
    intro T hT p n hm
    rw [List.mem_singleton.1 hT] at hm
    have : ∀ two, ∀ e ∈ exRuns two, (get? "_execute_in".toList e.2).isSome = true ∧ (get? "_start_point".toList e.2).isSome = true := by
      decide +kernel
    exact this two _ hm
  closed := by
    intro T hT ns x hN h0 hx
    rw [List.mem_singleton.1 hT] at hx ⊢
    obtain ⟨ms, hm, e⟩ := exRuns_path hx
    have := Path.render_inj hN (exRuns_names hm) e
    have key : ∀ two, ∀ ms ∈ exRunsNames, ms.dropLast ≠ [] → render ms.dropLast ∈ keys (exRuns two) := by decide +kernel
    have := key two ms hm
    rw [← ‹ns ++ [x] = ms›, List.dropLast_concat] at this
    exact this h0
  world := by
    have : ∀ two, ∀ n ∈ stack [exRuns two] ['/'], (getAttr n "_instance".toList).hasOpinion = false ∧
      (getAttr n "_enabled".toList).hasOpinion = false ∧ (listed n).Nodup := by decide +kernel
    exact this two
  enabled := by
    intro T hT p n hm e
    rw [List.mem_singleton.1 hT] at hm
    have : ∀ two, ∀ e ∈ exRuns two, (match getAttr e.2 "_enabled".toList with | .none => true | _ => false) = true := by
      decide +kernel
    have := this two _ hm
    simp only [e] at this
    cases this

/-- What is written of `exRuns true`. -/
def exRunsWritten : Dict Str Val :=
  Layer.leftoverLoop ((exRuns true).foldl (fun d pn => set pn.1 (.dict (saveNode [] pn.2)) d) [])
    (["/", "/a", "/a/x", "/a/y", "/b", "/c"].map String.toList) []

theorem exRunsWritten_eq : nodesSaveData [] (exRuns true) = exRunsWritten := by
  have : ((keys ((exRuns true).foldl (fun d pn => Dict.set pn.1 (Val.dict (saveNode [] pn.2)) d) [])).mergeSort strLe)
      = ["/", "/a", "/a/x", "/a/y", "/b", "/c"].map String.toList := by
    refine List.Perm.eq_of_pairwise (le := fun a b => strLe a b = true) (fun a b _ _ h1 h2 => strLe_antisymm _ _ h1 h2)
      (List.pairwise_mergeSort strLe_trans strLe_total _) (by decide +kernel) ((List.mergeSort_perm _ _).trans ?_)
    decide +kernel
  unfold nodesSaveData Layer.orderNodesDict
  rw [this]; rfl

/-- The layer which is loaded. -/
def exRunsAgain : Comp.LayerNodes := (loadNodes none (Layer.leftoverLoop exRunsWritten (keys exRunsWritten) []) []).getD []

theorem exRuns_reopened : Reopened [] [exRuns true] [exRunsAgain] := by
  refine .cons (file := none) ?_ .nil
  rw [exRunsWritten_eq]
  unfold constructNodes Layer.orderNodesDict
  rw [List.mergeSort_of_pairwise (by decide +kernel)]
  have : (loadNodes none (Layer.leftoverLoop exRunsWritten (keys exRunsWritten) []) []).isSome = true := by decide +kernel
  obtain ⟨T, hT⟩ := Option.isSome_iff_exists.1 this
  unfold exRunsAgain
  rw [hT]
  rfl

/-- What is executed from a node of composed layers. -/
def exRunOrder (layers : List Comp.LayerNodes) (p : String) : Option (List String) :=
  (postProxy (classesOf layers).2 (sortInstances (classesOf layers).2 (classesOf layers).2 (classesOf layers).1)
    (classesOf layers).1).bind fun g =>
      (Exec.execOrder (execTable (classesOf layers).2 g) (Tree.scan (fun a b => a == b) (execTable (classesOf layers).2 g)) 9
        p.toList).map (fun l => l.map String.ofList)

/-- C138, what does not hold: with two roots to execute after `/a`, the graph saved and opened again executes another one
than before. -/
theorem C138_two_next_violation :
    Tidy [exRuns true] ∧ Reopened [] [exRuns true] [exRunsAgain] ∧
    exRunOrder [exRuns true] "/a" = some ["/a", "/a/y", "/a/x", "/c"] ∧
    exRunOrder [exRunsAgain] "/a" = some ["/a", "/a/y", "/a/x", "/b"] :=
  ⟨exRuns_tidy true, exRuns_reopened, by decide +kernel, by decide +kernel⟩

/-- A case of `C138_plain`: `/a` with its children, then `/c`, then `/b`, however often the graph is saved and opened. -/
example (layers' : List Comp.LayerNodes) (h : Reopened [] [exRuns false] layers') :
    exRunOrder layers' "/a" = some ["/a", "/a/y", "/a/x", "/c", "/b"] := by
  obtain ⟨g, g', h1, h2, h3⟩ := C138_plain h (exRuns_tidy false)
    (by
      intro p c d hp hd
      have : ∀ e ∈ (classesOf [exRuns false]).2,
          instSource (classesOf [exRuns false]).1 (classesOf [exRuns false]).2 (classesOf [exRuns false]).1.bases e.2 = none := by
        decide +kernel
      have := this _ (mem_of_get? hp)
      rw [show instSource _ _ _ (p, c).2 = some d from hd] at this
      cases this)
    (by
      intro p q n m s hne hn hm e1 e2
      have key : ∀ p n, n ∈ stack [exRuns false] p → getAttr n "_execute_in".toList = .str s →
          (p = "/c".toList ∧ s = "/a".toList) ∨ (p = "/b".toList ∧ s = "/c".toList) := by
        intro p n hn he
        obtain ⟨l, hl, hm⟩ := mem_stack hn
        rw [List.mem_singleton.1 hl] at hm
        have : ∀ e ∈ exRuns false, (match getAttr e.2 "_execute_in".toList with
            | .str s => decide ((e.1 = "/c".toList ∧ s = "/a".toList) ∨ (e.1 = "/b".toList ∧ s = "/c".toList))
            | _ => true) = true := by decide +kernel
        have := this _ hm
        simp only [he] at this
        exact of_decide_eq_true this
      rcases key p n hn e1 with ⟨rfl, rfl⟩ | ⟨rfl, rfl⟩ <;> rcases key q m hm e2 with ⟨rfl, h⟩ | ⟨rfl, h⟩
      · exact hne rfl
      · revert h; decide
      · revert h; decide
      · exact hne rfl)
  have h0 : exRunOrder [exRuns false] "/a" = some ["/a", "/a/y", "/a/x", "/c", "/b"] := by decide +kernel
  unfold exRunOrder at h0 ⊢
  rw [h1, Option.bind_some, h3] at h0
  rw [h2, Option.bind_some]
  exact h0

/-- Where an execution of composed layers starts if no node is given. -/
def exRunStart (layers : List Comp.LayerNodes) : Option String :=
  (postProxy (classesOf layers).2 (sortInstances (classesOf layers).2 (classesOf layers).2 (classesOf layers).1)
    (classesOf layers).1).bind fun g =>
      match Start.startPath (execTable (classesOf layers).2 g) (startPoint (classesOf layers).2 g) (.other .none) with
      | .ok p => some (String.ofList p)
      | .error _ => none

example : exRunStart [exRuns true] = some "/a" ∧ exRunStart [exRunsAgain] = some "/a" := by decide +kernel

end Nxt.Props
