import Verif.Lemmas.BuildShown
import Verif.Props.Build
import Verif.Props.BuildReopen
import Verif.Props.ListsOrder
import Verif.Spec.BuildExec
/-!
# Properties C148 and C149: what a stage with instances executes
-/
namespace Nxt.Props
open Dict NodeData Mro Inherit Spec Path Composite

namespace Executing
open Build Building

variable {layers : List Comp.LayerNodes}

theorem orders_nil {p : Str} (h : stack layers p = []) : ReopenRun.mergedOrder p (stack layers p) = [] := by rw [h]; rfl

theorem nodup_of (t : Tidy layers) {p : Str} (hp : p ≠ ['/']) : ∀ n ∈ stack layers p, (listed n).Nodup := by
  intro n hn
  obtain ⟨l, hl, hm⟩ := mem_stack hn
  obtain ⟨od, hgood⟩ := t.good l hl
  rw [ReopenRun.listed_good hgood hm]
  exact (hgood.listed p (mem_keys_of_mem hm) hp).1

theorem not_world {ns : List Str} (hN : Names ns) (h0 : ns ≠ []) : render ns ≠ ['/'] := fun e => h0 ((render_eq_world hN).1 e)

theorem mem_own (t : Tidy layers) {ns : List Str} (hN : Names ns) (h0 : ns ≠ []) (x : Str) :
    x ∈ ownOrders layers ns ↔ ∃ n ∈ stack layers (render ns), x ∈ listed n := by
  unfold ownOrders
  by_cases h : stack layers (render ns) = []
  · rw [orders_nil h, h]; simp
  · exact (ReopenRun.merged_spec (not_world hN h0) h (nodup_of t (not_world hN h0))).2 x

theorem full (t : Tidy layers) (hs : NoStale layers) : Proxies.Full (instPathOf layers) (ownOrders layers) where
  nodup := by
    intro p hp
    by_cases h0 : p = []
    · subst h0
      exact ReopenRun.merged_world fun n hn => (t.world n hn).2.2
    · unfold ownOrders
      by_cases h : stack layers (render p) = []
      · rw [orders_nil h]; exact List.nodup_nil
      · exact (ReopenRun.merged_spec (not_world hp h0) h (nodup_of t (not_world hp h0))).1
  empty := fun p _ h => orders_nil (instPathOf_none.1 h)
  listed := by
    intro ns x hN h0 hx
    rw [mem_own t (names_append.1 hN).1 h0]
    have hne : stack layers (render (ns ++ [x])) ≠ [] := fun h => hx (instPathOf_none.2 h)
    obtain ⟨m, tl, e⟩ := List.exists_cons_of_ne_nil hne
    obtain ⟨l, hl, hm⟩ := mem_stack (n := m) (p := render (ns ++ [x])) (layers := layers) (by rw [e]; simp)
    obtain ⟨od, hgood⟩ := t.good l hl
    have hk := t.closed l hl ns x hN h0 (mem_keys_of_mem hm)
    obtain ⟨m', hm'⟩ := mem_keys.1 hk
    refine ⟨m', List.mem_filterMap.2 ⟨l, hl, get?_of_mem hgood.ok hm'⟩, ?_⟩
    rw [ReopenRun.listed_good hgood hm']
    have := (hgood.listed _ hk (not_world (names_append.1 hN).1 h0)).2 _ (mem_keys_of_mem hm) (C09_parent_name_join ns x hN).1
    rw [(C09_parent_name_join ns x hN).2.1] at this
    exact this
  stale := by
    intro p x hN h0 hx
    rw [mem_own t hN h0] at hx
    obtain ⟨n, hn, hxn⟩ := hx
    obtain ⟨l, hl, hm⟩ := mem_stack hn
    obtain ⟨h1, h2⟩ := hs l hl p n hN h0 hm x hxn
    exact ⟨h1, fun h => h2 (instPathOf_none.1 h)⟩
  closed := by
    intro ns x hN h0 hx h
    have hne : stack layers (render (ns ++ [x])) ≠ [] := fun h => hx (instPathOf_none.2 h)
    obtain ⟨m, tl, e⟩ := List.exists_cons_of_ne_nil hne
    obtain ⟨l, hl, hm⟩ := mem_stack (n := m) (p := render (ns ++ [x])) (layers := layers) (by rw [e]; simp)
    obtain ⟨od, hgood⟩ := t.good l hl
    obtain ⟨m', hm'⟩ := mem_keys.1 (t.closed l hl ns x hN h0 (mem_keys_of_mem hm))
    have : m' ∈ stack layers (render ns) := List.mem_filterMap.2 ⟨l, hl, get?_of_mem hgood.ok hm'⟩
    rw [instPathOf_none.1 h] at this
    cases this

theorem world_plain (t : Tidy layers) : ∀ i, instPathOf layers [] = some (some i) → i = [] := by
  intro i hi
  unfold instPathOf at hi
  split at hi
  · cases hi
  · have : strongest (stack layers (render [])) "_instance".toList = none := by
      unfold strongest
      rw [List.find?_eq_none]
      intro n hn
      rw [(t.world n hn).1]
      decide
    rw [this] at hi
    cases hi

/-- The composite layer, with what its tables say and the child orders of its nodes. -/
structure Ran (layers : List Comp.LayerNodes) (B : BSt) (g : Classes) : Prop where
  whole : Whole layers B g
  shown : Shown layers B
  copied : ∀ p s, Names p → Drawn layers p s →
    Proxies.orderOf B.lite (render p) = Lists.listMerger (ownOrders layers p) (ownOrders layers s)
  plain : ∀ p, Names p → render p ∈ keys B.lite.nodes → (¬ ∃ s, Drawn layers p s) →
    Proxies.orderOf B.lite (render p) = ownOrders layers p
  sound : ∀ p i r, Names p → nodesOf B.lite p = some (some i) → PointsTo i p r → Made (instPathOf layers) (.inst p r)

theorem ran (t : Tidy layers) (hs : NoStale layers) (hn : Named layers) (C : Separate (instPathOf layers)) (same : Str → Str → Bool)
    {kids : List Str → Str → List Str} (hk : GivesKids kids) (real : Option Str) :
    ∃ n, ∀ fuel ≥ n, ∃ B g, compose same kids real fuel layers = some (g, (classes B).2) ∧ Ran layers B g := by
  have hw := world_plain t
  have F := full t hs
  obtain ⟨n, h⟩ := whole_with t.spec hn hw C same hk real
  refine ⟨n, fun fuel hf => ?_⟩
  obtain ⟨B, g, h1, h2, W⟩ := h fuel hf
  have hR : Proxies.compProxies same kids fuel (start layers).lite = some B.lite := by
    rw [← lite_compProxies same kids real fuel (start layers), h1]; rfl
  have hN : nodesOf (start layers).lite = instPathOf layers := funext (nodesOf_start t.spec)
  have hO : ordersOf (start layers).lite = ownOrders layers := funext (ordersOf_start t.spec)
  have key := fun {p : List Str} (hp : Names p) (hR' : nodesOf B.lite p ≠ none) =>
    Proxies.compProxies_merged hk (start_start t.spec hw) (by rw [hN]; exact C) (by rw [hN, hO]; exact F) hR hp hR'
  simp only [hN, hO] at key
  refine ⟨B, g, h2, W, shown_compProxies t.spec hn t.good hw C F same hk real h1, fun p s hp hd => ?_, fun p hp hm hd => ?_,
    hN ▸ (C79_sound same kids hk fuel _ _ (start_start t.spec hw) hR).2.1⟩
  · exact (key hp (nodesOf_ne.2 ((W.done.nodes p hp).2 (.inr ⟨s, drawn_iff.1 hd⟩)))).1 s (drawn_iff.1 hd)
  · exact (key hp (nodesOf_ne.2 hm)).2 (by simpa only [← drawn_iff] using hd)

section
variable {B : BSt} {g : Classes}

/-- Attributes no arc touches are read from the node itself. -/
theorem read (t : Tidy layers) (W : Whole layers B g) {p : Str} {c : Nat} (hc : get? p (classes B).2 = some c)
    {k : Str} {v : Val} (hv : ∀ n, get? p B.tab = some n → firstTable k (n.own :: n.bases) = some v) (hk : Untouched k) :
    g.attr c k = v := by
  have hCl := W.classed
  obtain ⟨n, hn, he⟩ := classed_tab t.spec W.kept W.done.ok (mem_of_get? hc)
  have := C72_local_first hCl.laid (fun p c hm => W.done.path p (hCl.keys ▸ mem_keys_of_mem hm))
    (fun ns c hN hm => by
      obtain ⟨m, ht, he⟩ := hCl.tables _ c hm
      rw [he]
      exact parent_tables t.spec (world_plain t) hN ht)
    (fun p c hm => by
      obtain ⟨m, ht, he⟩ := hCl.tables _ c hm
      rw [he]
      exact ht.has)
    (C16_stable_sort (fun pc : Str × Nat => (trace (classes B).2 (classes B).1 pc.1).length) (classes B).2).1 W.run (mem_of_get? hc)
    (by rw [he]; exact hv n hn) hk
  unfold Classes.attr
  rw [this]
  rfl

theorem read_order (t : Tidy layers) (R : Ran layers B g) {p : Str} {c : Nat} (hc : get? p (classes B).2 = some c) :
    g.attr c A_CHILD_ORDER = .list ((Proxies.orderOf B.lite p).map Val.str) :=
  read t R.whole hc (fun n hn => (R.shown p n hn).order) (by decide +kernel)

theorem read_name (t : Tidy layers) (R : Ran layers B g) {p : Str} {c : Nat} (hc : get? p (classes B).2 = some c) :
    g.attr c A_NAME = .str (nodeName p) :=
  read t R.whole hc (fun n hn => (R.shown p n hn).name) (by decide +kernel)

theorem read_parent (t : Tidy layers) (R : Ran layers B g) {ns : List Str} (hN : Names ns) {c : Nat}
    (hc : get? (render ns) (classes B).2 = some c) : g.attr c A_PARENT = .str (parentText ns) := by
  refine read t R.whole hc (fun n hn => ?_) (by decide +kernel)
  have := R.whole.kept.tab _ n hn
  exact parent_tables t.spec (world_plain t) hN this

/-- The source of a node is never the world. -/
theorem source_below (C : Separate (instPathOf layers)) {q r : List Str} (h : InstOf (instPathOf layers) q r) : r ≠ [] := by
  rintro rfl
  exact (C.apart q [] q [] h h).2 List.nil_prefix

theorem orders_nodup (t : Tidy layers) (hs : NoStale layers) (R : Ran layers B g) {ns : List Str} (hN : Names ns)
    (hm : render ns ∈ keys B.lite.nodes) : (Proxies.orderOf B.lite (render ns)).Nodup := by
  have F := full t hs
  by_cases hd : ∃ s, Drawn layers ns s
  · obtain ⟨s, hd⟩ := hd
    rw [R.copied ns s hN hd]
    exact (C15_union_nodup _ _ (F.nodup ns hN) (F.nodup s (drawn_iff.1 hd).names.1)).1
  · rw [R.plain ns hN hm hd]
    exact F.nodup ns hN

theorem table_ok (t : Tidy layers) (hs : NoStale layers) (R : Ran layers B g) : TreeOk (execTable (classes B).2 g) := by
  have hok : Dict.Ok (classes B).2 := R.whole.classed.laid.ok
  have hok' : Dict.Ok (execTable (classes B).2 g) := by
    unfold Dict.Ok; rw [ReopenRun.keys_execTable]; exact hok
  have path : ∀ {q : Str} {c : Nat}, get? q (classes B).2 = some c → q ∈ keys B.lite.nodes ∧ ∃ ns, Names ns ∧ q = render ns := by
    intro q c hc
    have : q ∈ keys B.lite.nodes := R.whole.classed.keys ▸ mem_keys_of_mem (mem_of_get? hc)
    exact ⟨this, R.whole.done.path q this⟩
  refine ⟨hok', fun q n hm => ?_, fun q n hm => ?_⟩
  · have hq := get?_of_mem hok' hm
    rw [ReopenRun.get?_execTable] at hq
    obtain ⟨c, hc', rfl⟩ := Option.map_eq_some_iff.1 hq
    obtain ⟨-, ns, hN, rfl⟩ := path hc'
    simp only [read_name t R hc', read_parent t R hN hc', Composite.textOf]
    rcases Path.eq_nil_or_snoc ns with rfl | ⟨ms, x, rfl⟩
    · exact .inl ⟨rfl, rfl, rfl⟩
    · refine .inr ⟨ms, x, hN, rfl, ?_, (C09_parent_name_join ms x hN).2.1⟩
      unfold parentText
      rw [if_neg (by simp), List.dropLast_concat]
  · have hq := get?_of_mem hok' hm
    rw [ReopenRun.get?_execTable] at hq
    obtain ⟨c, hc', rfl⟩ := Option.map_eq_some_iff.1 hq
    obtain ⟨hk, ns, hN, rfl⟩ := path hc'
    simp only [read_order t R hc', names_map, Option.getD_some]
    exact orders_nodup t hs R hN hk

/-- The child order of a node of the composite layer. -/
theorem childOrder_of (t : Tidy layers) (R : Ran layers B g) {p : Str} {n : Tree.LNode} (h : get? p (execTable (classes B).2 g) = some n) :
    n.childOrder = Proxies.orderOf B.lite p := by
  rw [ReopenRun.get?_execTable] at h
  obtain ⟨c, hc', rfl⟩ := Option.map_eq_some_iff.1 h
  simp only [read_order t R hc', names_map, Option.getD_some]

theorem drawn_parent (t : Tidy layers) (hs : NoStale layers) (C : Separate (instPathOf layers)) {ns s : List Str} {x : Str}
    (hN : Names (ns ++ [x])) (hst : stack layers (render (ns ++ [x])) = []) (hd : Drawn layers (ns ++ [x]) s) :
    ∃ s', s = s' ++ [x] ∧ s' ≠ [] ∧ Drawn layers ns s' := by
  have hsN := (drawn_iff.1 hd).names.1
  obtain ⟨q, r, tt, e, rfl, hi, htn, hne⟩ := hd
  rcases Path.eq_nil_or_snoc tt with rfl | ⟨t', y, rfl⟩
  · obtain ⟨-, i, hi, -⟩ := hi
    rw [List.append_nil] at e
    rw [← e, instPathOf_none.2 hst] at hi
    cases hi
  · rw [← List.append_assoc] at e
    obtain ⟨e1, e2⟩ := List.append_inj' e rfl
    cases e2
    subst e1
    have h0 : r ++ t' ≠ [] := by
      intro h
      exact source_below C hi (List.append_eq_nil_iff.1 h).1
    refine ⟨r ++ t', by simp, h0, q, r, t', rfl, rfl, hi, (names_append.1 htn).1, ?_⟩
    have := (full t hs).closed (r ++ t') x (by simpa using hsN) h0 (by
      rw [ne_eq, instPathOf_none]; simpa using hne)
    exact fun h => this (instPathOf_none.2 h)

theorem table_listed (t : Tidy layers) (hs : NoStale layers) (C : Separate (instPathOf layers)) (R : Ran layers B g) :
    AllListed (execTable (classes B).2 g) := by
  have F := full t hs
  intro ns x n hN h0 hx hn
  have hNs := (names_append.1 hN).1
  have hco := childOrder_of t R hn
  rw [hco]
  have hk : render ns ∈ keys B.lite.nodes := by
    have := mem_keys_of_mem (mem_of_get? hn)
    rwa [ReopenRun.keys_execTable, R.whole.classed.keys] at this
  rw [ReopenRun.keys_execTable, ← get?_isSome, R.whole.nodes hN] at hx
  by_cases hst : stack layers (render (ns ++ [x])) = []
  · obtain ⟨s, hd⟩ := hx.resolve_left (fun h => h hst)
    obtain ⟨s', rfl, h0', hd'⟩ := drawn_parent t hs C hN hst hd
    have hsN := (drawn_iff.1 hd).names.1
    have hne : stack layers (render (s' ++ [x])) ≠ [] := by obtain ⟨_, _, _, _, _, _, _, h⟩ := hd; exact h
    have := F.listed s' x hsN h0' (by rw [ne_eq, instPathOf_none]; exact hne)
    rw [R.copied ns s' hNs hd', (C15_union_nodup _ _ (F.nodup ns hNs) (F.nodup s' (names_append.1 hsN).1)).2]
    exact .inr this
  · have := F.listed ns x hN h0 (by rw [ne_eq, instPathOf_none]; exact hst)
    by_cases hd : ∃ s, Drawn layers ns s
    · obtain ⟨s, hd⟩ := hd
      rw [R.copied ns s hNs hd, (C15_union_nodup _ _ (F.nodup ns hNs) (F.nodup s (drawn_iff.1 hd).names.1)).2]
      exact .inl this
    · rw [R.plain ns hNs hk hd]
      exact this

end
theorem not_drawn (C : Separate (instPathOf layers)) {q r t s : List Str} (hi : InstOf (instPathOf layers) q r) :
    ¬ Drawn layers (r ++ t) s := by
  rintro ⟨q', r', t', e, rfl, hi', -, -⟩
  obtain ⟨h1, h2⟩ := C.apart q r q' r' hi hi'
  rcases comparable e.symm with h | h
  · exact h1 h
  · exact h2 h

section
variable {B : BSt} {g : Classes}

/-- Every name in a child order is that of a node. -/
theorem listed_real (t : Tidy layers) (hs : NoStale layers) (C : Separate (instPathOf layers)) (R : Ran layers B g) {ns : List Str}
    (hN : Names ns) (h0 : ns ≠ []) (hm : render ns ∈ keys B.lite.nodes) {x : Str} (hx : x ∈ Proxies.orderOf B.lite (render ns)) :
    Names [x] ∧ render (ns ++ [x]) ∈ keys (classes B).2 := by
  have F := full t hs
  have there : ∀ {ns : List Str}, Names ns → ns ≠ [] → x ∈ ownOrders layers ns → Names [x] ∧ stack layers (render (ns ++ [x])) ≠ [] := by
    intro ns hN h0 hx
    obtain ⟨h1, h2⟩ := F.stale ns x hN h0 hx
    exact ⟨h1, fun h => h2 (instPathOf_none.2 h)⟩
  by_cases hd : ∃ s, Drawn layers ns s
  · obtain ⟨s, hd⟩ := hd
    have hsN := (drawn_iff.1 hd).names.1
    rw [R.copied ns s hN hd, (C15_union_nodup _ _ (F.nodup ns hN) (F.nodup s hsN)).2] at hx
    rcases hx with hx | hx
    · obtain ⟨h1, h2⟩ := there hN h0 hx
      exact ⟨h1, get?_isSome.1 ((R.whole.nodes (names_append.2 ⟨hN, h1⟩)).2 (.inl h2))⟩
    · obtain ⟨q, r, u, rfl, rfl, hi, hu, hne⟩ := hd
      have h0' : r ++ u ≠ [] := fun h => source_below C hi (List.append_eq_nil_iff.1 h).1
      obtain ⟨h1, h2⟩ := there hsN h0' hx
      exact ⟨h1, get?_isSome.1 ((R.whole.nodes (names_append.2 ⟨hN, h1⟩)).2 (.inr
        ⟨r ++ u ++ [x], q, r, u ++ [x], by simp, by simp, hi, names_append.2 ⟨hu, h1⟩, h2⟩))⟩
  · rw [R.plain ns hN hm hd] at hx
    obtain ⟨h1, h2⟩ := there hN h0 hx
    exact ⟨h1, get?_isSome.1 ((R.whole.nodes (names_append.2 ⟨hN, h1⟩)).2 (.inl h2))⟩

theorem nodeName_snoc {ns : List Str} {x : Str} (h : Names (ns ++ [x])) : nodeName (render (ns ++ [x])) = x :=
  (C09_parent_name_join ns x h).2.1

/-- The children of a node, in order, where its child order is just the names of its children. -/
theorem paths_of {nodes : Tree.Nodes} (T : TreeOk nodes) (L : AllListed nodes) {kids : Str → Tree.Nodes} (K : KidsOk nodes kids)
    {ns : List Str} (hN : Names ns) (h0 : ns ≠ []) {n : Tree.LNode} (hn : get? (render ns) nodes = some n)
    (hr : ∀ x ∈ n.childOrder, Names [x] ∧ render (ns ++ [x]) ∈ keys nodes) :
    Tree.orderedPaths nodes (kids (render ns)) (render ns) false = some (n.childOrder.map (fun x => render (ns ++ [x]))) := by
  obtain ⟨r, h1, h2, h3, lst, h4, h5⟩ := C46_ordered nodes kids T K ns hN h0 false n.childOrder (T.order _ n (mem_of_get? hn))
    (fun m hm => by rw [hn] at hm; cases hm; rfl) (fun h => absurd (mem_keys_of_mem (mem_of_get? hn)) h)
  rw [h1]
  obtain ⟨c1, c2⟩ := Tree.childPaths_real T K (render ns)
  have hshape : ∀ q ∈ Tree.childPaths nodes (kids (render ns)) (render ns) false, ∃ x, Names (ns ++ [x]) ∧ q = render (ns ++ [x]) ∧
      x ∈ n.childOrder := by
    intro q hq
    obtain ⟨ms, x, m1, m2, m3, m4⟩ := (c2 q).1 hq
    have := render_inj hN (names_append.1 m1).1 m2
    subst this
    exact ⟨x, m1, m3, L ns x n m1 h0 (m3 ▸ m4) hn⟩
  have hf : (Tree.childPaths nodes (kids (render ns)) (render ns) false).filter (fun q => nodeName q ∉ n.childOrder) = [] := by
    rw [List.filter_eq_nil_iff]
    intro q hq
    obtain ⟨x, m1, rfl, m3⟩ := hshape q hq
    rw [nodeName_snoc m1]
    simpa using m3
  rw [hf, List.append_nil] at h4
  subst h4
  have hall : n.childOrder.filter (· ∈ (Tree.childPaths nodes (kids (render ns)) (render ns) false).map nodeName) = n.childOrder := by
    rw [List.filter_eq_self]
    intro x hx
    obtain ⟨k1, k2⟩ := hr x hx
    have hNx : Names (ns ++ [x]) := names_append.2 ⟨hN, k1⟩
    simp only [decide_eq_true_eq, List.mem_map]
    exact ⟨render (ns ++ [x]), (c2 _).2 ⟨ns, x, hNx, rfl, rfl, k2⟩, nodeName_snoc hNx⟩
  rw [hall] at h5
  rw [← h5, List.map_map]
  congr 1
  conv => lhs; rw [← List.map_id r]
  refine List.map_congr_left fun q hq => ?_
  obtain ⟨x, m1, rfl, -⟩ := hshape q ((h3 q).1 hq)
  simp only [id_eq, Function.comp_apply, nodeName_snoc m1]

/-- The walk through child orders. -/
def walk (order : List Str → List Str) : Nat → List Str → Option (List (List Str))
  | 0, _ => none
  | fuel + 1, t => ((order t).mapM (fun x => (walk order fuel (t ++ [x])).map (fun d => (t ++ [x]) :: d))).map List.flatten

theorem mapM_same {α β γ : Type} (f : α → Option (List β)) (h : α → Option (List γ)) (k : γ → β) :
    ∀ l : List α, (∀ x ∈ l, f x = (h x).map (List.map k)) →
      (l.mapM f).map List.flatten = ((l.mapM h).map List.flatten).map (List.map k) := by
  intro l
  have key : ∀ l : List α, (∀ x ∈ l, f x = (h x).map (List.map k)) → l.mapM f = (l.mapM h).map (List.map (List.map k)) := by
    intro l
    induction l with
    | nil => intro _; rfl
    | cons x l ih =>
      intro hl
      rw [List.mapM_cons, List.mapM_cons, hl x List.mem_cons_self, ih fun y hy => hl y (List.mem_cons_of_mem _ hy)]
      cases h x with
      | none => rfl
      | some v =>
        cases l.mapM h with
        | none => rfl
        | some w => rfl
  intro hl
  rw [key l hl]
  cases l.mapM h with
  | none => rfl
  | some w => simp [List.map_flatten]

theorem mapM_mem {α β : Type} (f : α → Option β) : ∀ (l : List α) {r : List β}, l.mapM f = some r → ∀ y ∈ r, ∃ x ∈ l, f x = some y := by
  intro l
  induction l with
  | nil => intro r h y hy; cases h; cases hy
  | cons a l ih =>
    intro r h y hy
    rw [List.mapM_cons] at h
    cases ha : f a with
    | none => rw [ha] at h; cases h
    | some b =>
      cases hl : l.mapM f with
      | none => rw [ha, hl] at h; cases h
      | some r' =>
        rw [ha, hl] at h
        cases h
        rcases List.mem_cons.1 hy with rfl | hy
        · exact ⟨a, List.mem_cons_self, ha⟩
        · obtain ⟨x, hx, e⟩ := ih hl y hy
          exact ⟨x, List.mem_cons_of_mem _ hx, e⟩

/-- The ordered descendants of a node are those of the walk. -/
theorem desc_walk {nodes : Tree.Nodes} (T : TreeOk nodes) (L : AllListed nodes) {kids : Str → Tree.Nodes} (K : KidsOk nodes kids)
    {r : List Str} (h0 : r ≠ []) (order : List Str → List Str)
    (hr : ∀ t n, Names (r ++ t) → get? (render (r ++ t)) nodes = some n → n.childOrder = order t ∧
      ∀ x ∈ n.childOrder, Names [x] ∧ render (r ++ t ++ [x]) ∈ keys nodes) :
    ∀ fuel t, Names (r ++ t) → render (r ++ t) ∈ keys nodes →
      Tree.orderedDesc (fun q => Tree.orderedPaths nodes (kids q) q false) fuel (render (r ++ t)) =
        (walk order fuel t).map (List.map (fun u => render (r ++ u))) := by
  intro fuel
  induction fuel with
  | zero => intro t _ _; rfl
  | succ fuel ih =>
    intro t hN hk
    obtain ⟨n, hn⟩ := Option.isSome_iff_exists.1 (get?_isSome.2 hk)
    obtain ⟨e, hx⟩ := hr t n hN hn
    rw [Tree.orderedDesc, paths_of T L K hN (by simp [h0]) hn hx]
    simp only
    rw [walk, List.mapM_map, e]
    refine mapM_same _ _ (fun u => render (r ++ u)) _ fun x hxo => ?_
    obtain ⟨k1, k2⟩ := hx x (e ▸ hxo)
    show Option.map _ (Tree.orderedDesc _ fuel (render (r ++ t ++ [x]))) = _
    rw [List.append_assoc] at k2 ⊢
    rw [ih (t ++ [x]) (by rw [← List.append_assoc]; exact names_append.2 ⟨hN, k1⟩) k2]
    cases walk order fuel (t ++ [x]) <;> simp

theorem walk_mem {order : List Str → List Str} {P : List Str → Prop} (hstep : ∀ t x, P t → x ∈ order t → P (t ++ [x])) :
    ∀ fuel t T, P t → walk order fuel t = some T → ∀ u ∈ T, u ≠ [] ∧ P u := by
  intro fuel
  induction fuel with
  | zero => intro t T _ h; cases h
  | succ fuel ih =>
    intro t T hP h u hu
    rw [walk, Option.map_eq_some_iff] at h
    obtain ⟨Ls, h1, rfl⟩ := h
    obtain ⟨l, hl, hul⟩ := List.mem_flatten.1 hu
    obtain ⟨x, hx, e⟩ := mapM_mem _ _ h1 l hl
    obtain ⟨d, hd, rfl⟩ := Option.map_eq_some_iff.1 e
    have hPx := hstep t x hP hx
    rcases List.mem_cons.1 hul with rfl | hm
    · exact ⟨by simp, hPx⟩
    · exact ih _ _ hPx hd u hm
end

section
variable {B : BSt} {g : Classes}

theorem drawn_below (t : Tidy layers) {ns s : List Str} (h : Drawn layers ns s) : ns ≠ [] := by
  obtain ⟨q, r, u, rfl, rfl, ⟨-, i, hi, -⟩, -, -⟩ := h
  intro e
  obtain ⟨rfl, -⟩ := List.append_eq_nil_iff.1 e
  unfold instPathOf at hi
  split at hi
  · cases hi
  · have : strongest (stack layers (render [])) "_instance".toList = none := by
      unfold strongest
      rw [List.find?_eq_none]
      intro n hn
      rw [(t.world n hn).1]
      decide
    rw [this] at hi
    cases hi

theorem keys_lite (R : Ran layers B g) {p : Str} {c : Nat} (hc : get? p (classes B).2 = some c) : p ∈ keys B.lite.nodes :=
  R.whole.classed.keys ▸ mem_keys_of_mem (mem_of_get? hc)

/-- The child order of a source is that of its layers. -/
theorem source_order (C : Separate (instPathOf layers)) (R : Ran layers B g) {ns s : List Str} (hd : Drawn layers ns s) :
    Proxies.orderOf B.lite (render s) = ownOrders layers s := by
  have hsN := (drawn_iff.1 hd).names.1
  have hne : stack layers (render s) ≠ [] := by obtain ⟨_, _, _, _, _, _, _, h⟩ := hd; exact h
  obtain ⟨d, hd'⟩ := Option.isSome_iff_exists.1 ((R.whole.nodes hsN).2 (.inl hne))
  exact R.plain s hsN (keys_lite R hd') (Rebuilding.no_source C hd)

theorem children_of (t : Tidy layers) (hs : NoStale layers) (C : Separate (instPathOf layers)) (R : Ran layers B g) {ns s : List Str}
    {c d : Nat} (hN : Names ns) (hd : Drawn layers ns s) (hc : get? (render ns) (classes B).2 = some c)
    (hc' : get? (render s) (classes B).2 = some d) :
    ∃ o os : List Str, g.attr c A_CHILD_ORDER = .list (o.map Val.str) ∧ g.attr d A_CHILD_ORDER = .list (os.map Val.str) ∧
      o.Nodup ∧ (∀ x, x ∈ o ↔ x ∈ os ∨ ∃ m ∈ stack layers (render ns), x ∈ listed m) ∧
      ((∀ m ∈ stack layers (render ns), ∀ x ∈ listed m, x ∉ os) →
        ∃ own, o = own ++ os ∧ ∀ x ∈ own, ∃ m ∈ stack layers (render ns), x ∈ listed m) ∧
      (∀ m, stack layers (render ns) = [m] → (listed m).Sublist os → o = os) := by
  have F := full t hs
  have hsN := (drawn_iff.1 hd).names.1
  have h0 := drawn_below t hd
  have hu := C15_union_nodup _ _ (F.nodup ns hN) (F.nodup s hsN)
  refine ⟨_, _, read_order t R hc, read_order t R hc', ?_, ?_, ?_, ?_⟩
  · rw [R.copied ns s hN hd]; exact hu.1
  · intro x
    rw [R.copied ns s hN hd, source_order C R hd, hu.2, mem_own t hN h0]
    exact Or.comm
  · intro hx
    rw [source_order C R hd] at hx ⊢
    refine ⟨ownOrders layers ns, ?_, fun x hx => (mem_own t hN h0 x).1 hx⟩
    rw [R.copied ns s hN hd]
    refine C15_disjoint _ _ (F.nodup ns hN) fun x hxs hxn => ?_
    obtain ⟨m, hm, hxm⟩ := (mem_own t hN h0 x).1 hxn
    exact hx m hm x hxm hxs
  · intro m hm hsub
    rw [source_order C R hd] at hsub ⊢
    have e : ownOrders layers ns = listed m := by
      unfold ownOrders ReopenRun.mergedOrder
      rw [hm, ← Comp.childOrder_eq]
      simp only [List.reverse_singleton, List.foldl_cons, List.foldl_nil, List.getLast?_singleton]
      rw [if_neg (show ¬ render ns = Path.WORLD from not_world hN h0)]
      exact C15_contained _ _ (fun x hx => hx)
    rw [R.copied ns s hN hd, e]
    exact C15_part _ _ (F.nodup s hsN) hsub

/-- An instance no layer puts nodes below has the child orders of its source. -/
theorem own_nil (t : Tidy layers) (hs : NoStale layers) {q u : List Str} (hN : Names (q ++ u)) (h0 : q ≠ [])
    (hb : ∀ u, u ≠ [] → stack layers (render (q ++ u)) = []) : ownOrders layers (q ++ u) = [] := by
  rw [List.eq_nil_iff_forall_not_mem]
  intro x hx
  have := ((full t hs).stale (q ++ u) x hN (by simp [h0]) hx).2
  rw [List.append_assoc] at this
  exact this (instPathOf_none.2 (hb _ (by simp)))

/-- A node below an instance and the node below the source. -/
theorem mirror_nodes (t : Tidy layers) (C : Separate (instPathOf layers)) (R : Ran layers B g) {q r u : List Str}
    (hi : InstOf (instPathOf layers) q r) (hr : stack layers (render r) ≠ []) (hu : Names u)
    (hb : ∀ u, u ≠ [] → stack layers (render (q ++ u)) = []) :
    (render (q ++ u) ∈ keys (classes B).2 ↔ render (r ++ u) ∈ keys (classes B).2) ∧
    (render (r ++ u) ∈ keys (classes B).2 → Drawn layers (q ++ u) (r ++ u)) := by
  have hrN : Names r := (drawn_iff.1 (⟨q, r, [], by simp, by simp, hi, (by intro x hx; cases hx), by simpa using hr⟩ : Drawn layers q r)).names.1
  have h1 : render (r ++ u) ∈ keys (classes B).2 ↔ stack layers (render (r ++ u)) ≠ [] := by
    rw [← get?_isSome, R.whole.nodes (names_append.2 ⟨hrN, hu⟩)]
    exact ⟨fun h => h.resolve_right fun ⟨s, hd⟩ => not_drawn C hi hd, .inl⟩
  have h2 : stack layers (render (r ++ u)) ≠ [] → Drawn layers (q ++ u) (r ++ u) := fun h => ⟨q, r, u, rfl, rfl, hi, hu, h⟩
  refine ⟨?_, fun h => h2 (h1.1 h)⟩
  rw [h1, ← get?_isSome, R.whole.nodes (names_append.2 ⟨hi.1, hu⟩)]
  refine ⟨?_, fun h => .inr ⟨_, h2 h⟩⟩
  rintro (h | ⟨s, hd⟩)
  · by_cases h0 : u = []
    · subst h0; simpa using hr
    · exact absurd (hb u h0) h
  · obtain ⟨q', r', u', e, rfl, hi', hu', hne⟩ := hd
    have hq : q' = q := by
      rcases comparable e with hp | hp
      · refine Classical.byContradiction fun hne' => ?_
        obtain ⟨z, rfl⟩ := hp
        have hz : z ≠ [] := by rintro rfl; exact hne' (by simp)
        obtain ⟨-, i, hi'', -⟩ := hi'
        rw [instPathOf_none.2 (hb z hz)] at hi''
        cases hi''
      · refine Classical.byContradiction fun hne' => ?_
        obtain ⟨z, rfl⟩ := hp
        have hz : z ≠ [] := by rintro rfl; exact hne' (by simp)
        obtain ⟨hqN, i, hi'', hpt⟩ := hi
        have := (C.own q' r' z (some i) hi' hz (names_append.1 hqN).2 hi'').1
        cases this
    subst hq
    have := List.append_cancel_left e
    subst this
    have : r' = r := InstOf.unique hi' hi
    subst this
    exact hne
end

section
variable {B : BSt} {g : Classes}

/-- The ordered descendants of an instance and of its source. -/
theorem mirror_desc (t : Tidy layers) (hs : NoStale layers) (C : Separate (instPathOf layers)) (R : Ran layers B g) {q r : List Str}
    (hi : InstOf (instPathOf layers) q r) (hr : stack layers (render r) ≠ [])
    (hb : ∀ u, u ≠ [] → stack layers (render (q ++ u)) = []) {kids : Str → Tree.Nodes} (K : KidsOk (execTable (classes B).2 g) kids) :
    ∃ N, ∀ f ≥ N, ∃ T : List (List Str),
      Tree.descendantsOrdered (execTable (classes B).2 g) kids false f (render r) = some (T.map (fun u => render (r ++ u))) ∧
      Tree.descendantsOrdered (execTable (classes B).2 g) kids false f (render q) = some (T.map (fun u => render (q ++ u))) ∧
      ∀ u ∈ T, u ≠ [] ∧ Names u ∧ Drawn layers (q ++ u) (r ++ u) := by
  have hd0 : Drawn layers q r := ⟨q, r, [], by simp, by simp, hi, (by intro x hx; cases hx), hr⟩
  have hrN := (Building.drawn_iff.1 hd0).names.1
  have hr0 := source_below C hi
  have hq0 := drawn_below t hd0
  have T := table_ok t hs R
  have L := table_listed t hs C R
  have hkr : render r ∈ keys (classes B).2 := get?_isSome.1 ((R.whole.nodes hrN).2 (.inl hr))
  have hkq : render q ∈ keys (classes B).2 := get?_isSome.1 ((R.whole.nodes hi.1).2 (.inr ⟨r, hd0⟩))
  have hreal : ∀ {a u : List Str} {n : Tree.LNode}, a ≠ [] → Names (a ++ u) → get? (render (a ++ u)) (execTable (classes B).2 g) = some n →
      ∀ x ∈ n.childOrder, Names [x] ∧ render (a ++ u ++ [x]) ∈ keys (execTable (classes B).2 g) := by
    intro a u n h0 hN hn x hx
    have hk := mem_keys_of_mem (mem_of_get? hn)
    rw [ReopenRun.keys_execTable, R.whole.classed.keys] at hk
    rw [childOrder_of t R hn] at hx
    rw [ReopenRun.keys_execTable]
    exact listed_real t hs C R hN (by simp [h0]) hk hx
  have w1 := desc_walk T L K hr0 (fun u => ownOrders layers (r ++ u)) (fun u n hN hn => by
    refine ⟨?_, hreal hr0 hN hn⟩
    have hk := mem_keys_of_mem (mem_of_get? hn)
    rw [ReopenRun.keys_execTable] at hk
    rw [childOrder_of t R hn]
    exact R.plain _ hN (R.whole.classed.keys ▸ hk) fun ⟨s, hd⟩ => not_drawn C hi hd)
  have w2 := desc_walk T L K hq0 (fun u => ownOrders layers (r ++ u)) (fun u n hN hn => by
    refine ⟨?_, hreal hq0 hN hn⟩
    have hk := mem_keys_of_mem (mem_of_get? hn)
    rw [ReopenRun.keys_execTable] at hk
    obtain ⟨m1, m2⟩ := mirror_nodes t C R hi hr (names_append.1 hN).2 hb
    rw [childOrder_of t R hn, R.copied _ _ hN (m2 (m1.1 hk)), own_nil t hs hN hq0 hb]
    exact C15_disjoint _ _ List.nodup_nil (by simp))
  obtain ⟨N, hN⟩ := C47_ordered _ kids T K r hrN hr0 (by rw [ReopenRun.keys_execTable]; exact hkr)
  refine ⟨N, fun f hf => ?_⟩
  obtain ⟨D, hD, -⟩ := hN f hf
  have e1 := w1 f [] (by simpa using hrN) (by rw [ReopenRun.keys_execTable]; simpa using hkr)
  have e2 := w2 f [] (by simpa using hi.1) (by rw [ReopenRun.keys_execTable]; simpa using hkq)
  simp only [List.append_nil] at e1 e2
  unfold Tree.descendantsOrdered at hD ⊢
  have hwr : render r ≠ WORLD := not_world hrN hr0
  have hwq : render q ≠ WORLD := not_world hi.1 hq0
  rw [if_neg hwr] at hD ⊢
  rw [if_neg hwq, e1, e2]
  rw [e1] at hD
  cases hwk : walk (fun u => ownOrders layers (r ++ u)) f [] with
  | none => rw [hwk] at hD; cases hD
  | some T =>
    refine ⟨T, rfl, rfl, fun u hu => ?_⟩
    have F := full t hs
    obtain ⟨u0, hu1, hu2⟩ := walk_mem (P := fun u => Names u ∧ instPathOf layers (r ++ u) ≠ none)
      (fun u x hP hx => by
        obtain ⟨k1, k2⟩ := F.stale (r ++ u) x (names_append.2 ⟨hrN, hP.1⟩) (by simp [hr0]) hx
        exact ⟨names_append.2 ⟨hP.1, k1⟩, by rw [← List.append_assoc]; exact k2⟩)
      f [] T ⟨(by intro x hx; cases hx), by rw [List.append_nil, ne_eq, instPathOf_none]; exact hr⟩ hwk u hu
    exact ⟨u0, hu1, q, r, u, rfl, rfl, hi, hu1, fun h => hu2 (instPathOf_none.2 h)⟩

/-- A copy below an instance has what its source has. -/
theorem mirror_said (t : Tidy layers) (C : Separate (instPathOf layers)) (R : Ran layers B g) {ns s : List Str} (hN : Names ns)
    (hd : Drawn layers ns s) {a : Str} (ha : a ∈ THREE) (hsaid : saidOf layers ns a = none) :
    ∃ c d, get? (render ns) (classes B).2 = some c ∧ get? (render s) (classes B).2 = some d ∧ g.attr c a = g.attr d a := by
  have hsN := (drawn_iff.1 hd).names.1
  have hne : stack layers (render s) ≠ [] := by obtain ⟨_, _, _, _, _, _, _, h⟩ := hd; exact h
  obtain ⟨c, hc⟩ := Option.isSome_iff_exists.1 ((R.whole.nodes hN).2 (.inr ⟨s, hd⟩))
  obtain ⟨d, hd'⟩ := Option.isSome_iff_exists.1 ((R.whole.nodes hsN).2 (.inl hne))
  exact ⟨c, d, hc, hd', (opinions t.spec (world_plain t) C R.whole hN hc ha).2.1 hsaid s d hd hd'⟩

theorem mirror_off (t : Tidy layers) (C : Separate (instPathOf layers)) (R : Ran layers B g) {ns s : List Str} (hN : Names ns)
    (hd : Drawn layers ns s) (hsaid : saidOf layers ns A_ENABLED = none) :
    Off (execTable (classes B).2 g) (render ns) ↔ Off (execTable (classes B).2 g) (render s) := by
  obtain ⟨c, d, hc, hd', e⟩ := mirror_said t C R hN hd (a := A_ENABLED) (by decide +kernel) hsaid
  unfold Off
  rw [ReopenRun.get?_execTable, ReopenRun.get?_execTable, hc, hd']
  simp only [Option.map_some, Option.some.injEq, exists_eq_left', e]
end

section
variable {B : BSt} {g : Classes}

/-- What is read of an attribute which composing takes from the strongest layer with an opinion. -/
theorem read_over (t : Tidy layers) (R : Ran layers B g) {p : Str} {c : Nat} (hc : get? p (classes B).2 = some c) {a : Str}
    (ha : a ∈ [A_EXECUTE_IN, A_START]) :
    (∀ n, strongest (stack layers p) a = some n → g.attr c a = getAttr n a) ∧
    (strongest (stack layers p) a = none → (g.attr c a).hasOpinion = false) := by
  have hf : ∀ a ∈ [A_EXECUTE_IN, A_START], a ∈ Comp.OVERLOAD ∧ a ∉ EDITED ∧ Untouched a := by decide +kernel
  obtain ⟨f1, f2, f3⟩ := hf a ha
  have hhas : ∀ n ∈ stack layers p, (get? a n).isSome := by
    intro n hn
    obtain ⟨l, hl, hm⟩ := mem_stack hn
    have := t.attrs l hl p n hm
    simp only [List.mem_cons, List.not_mem_nil, or_false] at ha
    rcases ha with rfl | rfl
    · exact this.1
    · exact this.2
  by_cases hs : stack layers p = []
  · refine ⟨(fun n hn => by rw [hs] at hn; cases hn), fun _ => ?_⟩
    simp only [List.mem_cons, List.not_mem_nil, or_false] at ha
    rcases ha with rfl | rfl
    · rw [read t R.whole hc (fun n hn => (R.shown p n hn).exec hs) f3]; rfl
    · rw [read t R.whole hc (fun n hn => (R.shown p n hn).start hs) f3]; rfl
  · have hv : g.attr c a = (Comp.compNode p (stack layers p)).attr a := by
      refine read t R.whole hc (fun n hn => ?_) f3
      have ht := R.whole.kept.tab _ n hn
      rw [← ht.attr_real hs f2]
      refine firstTable_attr ?_
      obtain ⟨g1, -⟩ := ht.real hs
      obtain ⟨m, tl, e⟩ := List.exists_cons_of_ne_nil hs
      unfold firstTable
      rw [List.findSome?_isSome_iff]
      exact ⟨m, by rw [g1, e]; simp, hhas m (by rw [e]; simp)⟩
    obtain ⟨h1, h2⟩ := attr_compNode f1 hhas hs
    refine ⟨fun n hn => ?_, fun hn => ?_⟩
    · have hm : n ∈ stack layers p := List.mem_of_find?_eq_some hn
      obtain ⟨v, hv'⟩ := Option.isSome_iff_exists.1 (hhas n hm)
      rw [hv, (h1 v (by rw [hn]; exact hv')).1, getAttr_of_get? hv']
    · rw [hv]
      exact h2 (by rw [hn]; rfl)

theorem exec_said (t : Tidy layers) (R : Ran layers B g) {p : Str} {n : Tree.LNode} {s : Str}
    (hn : get? p (execTable (classes B).2 g) = some n) (he : n.execIn = .str s) :
    ∃ m ∈ stack layers p, getAttr m A_EXECUTE_IN = .str s := by
  rw [ReopenRun.get?_execTable] at hn
  obtain ⟨c, hc, rfl⟩ := Option.map_eq_some_iff.1 hn
  obtain ⟨h1, h2⟩ := read_over t R hc (a := A_EXECUTE_IN) (by simp)
  change g.attr c A_EXECUTE_IN = .str s at he
  cases hst : strongest (stack layers p) A_EXECUTE_IN with
  | none => have := h2 hst; rw [he] at this; cases this
  | some m => exact ⟨m, List.mem_of_find?_eq_some hst, by rw [← h1 m hst, he]⟩

theorem no_next (t : Tidy layers) (hs : NoStale layers) (R : Ran layers B g) {s : Str}
    (hx : ∀ l ∈ layers, ∀ p n, (p, n) ∈ l → getAttr n A_EXECUTE_IN ≠ .str s) (q : Str) : ¬ IsNextRoot (execTable (classes B).2 g) s q := by
  rintro ⟨A, n, B', e, -, h2, -⟩
  have hn := get?_of_mem (table_ok t hs R).ok (k := q) (v := n) (by rw [e]; simp)
  obtain ⟨m, hm, he⟩ := exec_said t R hn h2
  obtain ⟨l, hl, hm'⟩ := mem_stack hm
  exact hx l hl q m hm' he
end

/-- Below the same node, a path is above another as the rest of it is. -/
theorem above_iff {r u v : List Str} (hr : Names r) (hu : Names u) (hv : Names v) :
    Spec.Above (render (r ++ v)) (render (r ++ u)) ↔ ∃ rest, rest ≠ [] ∧ u = v ++ rest := by
  constructor
  · rintro ⟨ns, rest, h1, h2, h3, h4⟩
    have e1 := render_inj (names_append.2 ⟨hr, hv⟩) (names_append.1 h1).1 h3
    have e2 := render_inj (names_append.2 ⟨hr, hu⟩) h1 h4
    subst e1
    rw [List.append_assoc] at e2
    exact ⟨rest, h2, List.append_cancel_left e2⟩
  · rintro ⟨rest, h1, rfl⟩
    exact ⟨r ++ v, rest, by rw [List.append_assoc]; exact names_append.2 ⟨hr, hu⟩, h1, rfl, by rw [List.append_assoc]⟩

theorem render_rest {r u v : List Str} (hr : Names r) (hu : Names u) (hv : Names v) : render (r ++ v) = render (r ++ u) ↔ v = u :=
  ⟨fun h => List.append_cancel_left (render_inj (names_append.2 ⟨hr, hv⟩) (names_append.2 ⟨hr, hu⟩) h), fun h => by rw [h]⟩

theorem block_same {nodes : Tree.Nodes} {q r : List Str} (hq : Names q) (hr : Names r) {T : List (List Str)} (hT : ∀ u ∈ T, Names u)
    (h0 : Off nodes (render q) ↔ Off nodes (render r)) (hoff : ∀ u ∈ T, Off nodes (render (q ++ u)) ↔ Off nodes (render (r ++ u))) :
    ∃ M : List (List Str), (∀ u ∈ M, u = [] ∨ u ∈ T) ∧ rootBlock nodes (T.map (fun u => render (r ++ u))) (render r) = M.map (fun u => render (r ++ u)) ∧
      rootBlock nodes (T.map (fun u => render (q ++ u))) (render q) = M.map (fun u => render (q ++ u)) := by
  have hruns : ∀ a : List Str, Names a → ∀ u ∈ T, Runs nodes (T.map (fun u => render (a ++ u))) (render (a ++ u)) ↔
      ∀ v ∈ T, (v = u ∨ ∃ rest, rest ≠ [] ∧ u = v ++ rest) → ¬ Off nodes (render (a ++ v)) := by
    intro a ha u hu
    unfold Runs
    constructor
    · intro h v hv hvu
      refine h _ (List.mem_map_of_mem hv) ?_
      rw [render_rest ha (hT u hu) (hT v hv), above_iff ha (hT u hu) (hT v hv)]
      exact hvu
    · intro h b hb hbu
      obtain ⟨v, hv, rfl⟩ := List.mem_map.1 hb
      simp only [render_rest ha (hT u hu) (hT v hv), above_iff ha (hT u hu) (hT v hv)] at hbu
      exact h v hv hbu
  have hsame : ∀ u ∈ T, Runs nodes (T.map (fun u => render (q ++ u))) (render (q ++ u)) ↔
      Runs nodes (T.map (fun u => render (r ++ u))) (render (r ++ u)) := by
    intro u hu
    rw [hruns q hq u hu, hruns r hr u hu]
    exact ⟨fun h v hv hvu => by rw [← hoff v hv]; exact h v hv hvu, fun h v hv hvu => by rw [hoff v hv]; exact h v hv hvu⟩
  unfold rootBlock
  by_cases ho : Off nodes (render r)
  · rw [if_pos ho, if_pos (h0.2 ho)]
    exact ⟨[], (by simp), rfl, rfl⟩
  · rw [if_neg ho, if_neg (fun h => ho (h0.1 h))]
    refine ⟨[] :: T.filter (fun u => @decide (Runs nodes (T.map (fun u => render (r ++ u))) (render (r ++ u))) (Classical.propDecidable _)),
      fun u hu => ?_, ?_, ?_⟩
    · rcases List.mem_cons.1 hu with rfl | hu
      · exact .inl rfl
      · exact .inr (List.mem_filter.1 hu).1
    · unfold running
      rw [List.filter_map, List.map_cons, List.append_nil]
      rfl
    · unfold running
      rw [List.filter_map, List.map_cons, List.append_nil]
      congr 2
      refine List.filter_congr fun u hu => ?_
      exact decide_eq_decide.2 (hsame u hu)

section
variable {B B' : BSt} {g g' : Classes} {layers' : List Comp.LayerNodes}

/-- An enabled state is never an empty list. -/
theorem enabled_not_empty (t : Tidy layers) (C : Separate (instPathOf layers)) (R : Ran layers B g) {p : Str} {c : Nat}
    (hc : get? p (classes B).2 = some c) : g.attr c A_ENABLED ≠ .list [] := by
  have hCl := R.whole.classed
  have hcomp : ∀ p, stack layers p ≠ [] → (Comp.compNode p (stack layers p)).attr A_ENABLED ≠ .list [] := by
    intro p hs
    have hhas : ∀ n ∈ stack layers p, (get? A_ENABLED n).isSome ∧ getAttr n A_ENABLED ≠ .list [] := by
      intro n hn
      obtain ⟨l, hl, hm⟩ := mem_stack hn
      exact ⟨t.spec.keys l hl p n hm _ (by decide +kernel), t.enabled l hl p n hm⟩
    have hown : get? A_ENABLED (Comp.compNode p (stack layers p)).own = (strongest (stack layers p) A_ENABLED).map (fun n => getAttr n A_ENABLED) := by
      unfold Comp.compNode
      simp only
      rw [get?_set, if_neg (by decide +kernel)]
      have key : ∀ own co, get? A_ENABLED own = none → get? A_ENABLED ((stack layers p).reverse.foldl (Comp.overloadBase p) (own, co)).1 =
            (strongest (stack layers p) A_ENABLED).map (fun n => getAttr n A_ENABLED) := by
        intro own co hown
        rw [(Comp.overload_fold p (stack layers p) own co A_ENABLED (by decide +kernel)).1, hown]
        cases strongest (stack layers p) A_ENABLED <;> rfl
      apply key
      cases (stack layers p).head? with
      | none => rfl
      | some m => simp only [get?]; rw [if_neg (by decide +kernel)]
    unfold Comp.CompNode.attr
    rw [hown]
    cases hst : strongest (stack layers p) A_ENABLED with
    | some n => exact (hhas n (List.mem_of_find?_eq_some hst)).2
    | none =>
      obtain ⟨n, tl, hnt⟩ := List.exists_cons_of_ne_nil hs
      have hb : (Comp.compNode p (stack layers p)).bases = stack layers p := rfl
      have hn := hhas n (by rw [hnt]; simp)
      obtain ⟨v, hv⟩ := Option.isSome_iff_exists.1 hn.1
      rw [hb, hnt, Option.map_none, Option.none_or, List.findSome?_cons, hv, ← getAttr_of_get? hv]
      exact hn.2
  have hfirst : ∀ p c v, (p, c) ∈ (classes B).2 → firstTable A_ENABLED (tablesOf (classes B).1 (classes B).1.bases c) = some v → v ≠ .list [] := by
    intro p c v hm hv
    obtain ⟨n, ht, he⟩ := hCl.tables _ c hm
    rw [he, firstTable_attr (three_has t.spec ht (by decide +kernel))] at hv
    rw [← Option.some.inj hv]
    by_cases hs : stack layers p = []
    · obtain ⟨sp, cm, en, g1, g2, g3, ns, a, e, hmade, hl⟩ := ht.made hs
      have hN := hmade.inst_names.1
      subst e
      have hcopy : ∃ s, Drawn layers ns s :=
        (R.whole.nodes hN |>.1 (by rw [get?_of_mem hCl.laid.ok hm]; rfl)).resolve_left (fun hne => hne hs)
      obtain ⟨s, hcp⟩ := hcopy
      have hs' : a = s := by
        obtain ⟨q, r, u, rfl, rfl, hi, htn, hNs⟩ := drawn_iff.1 hcp
        have := (sep_copies C hi u [] (by
          rw [List.append_nil]
          exact (drawn_iff.1 hcp).names.1) (by rw [List.append_nil]; exact hNs)).2
        exact (Separate.calm C).one _ _ _ hmade this
      subst hs'
      have hst : stack layers (render a) ≠ [] := by obtain ⟨_, _, _, _, _, _, _, h⟩ := hcp; exact h
      have : n.attr A_ENABLED = en := by
        unfold Comp.CompNode.attr
        rw [g3 A_ENABLED (by decide +kernel) (by decide +kernel), g1]
        simp [g2.enabled]
      rw [this, (hl hst).2]
      exact hcomp _ hst
    · rw [ht.attr_real hs (by decide +kernel)]
      exact hcomp p hs
  have hch : Chosen (classes B).1 (classes B).2 (classes B).1.bases A_ENABLED c (g.attr c A_ENABLED) := by
    refine C75_composed_partial hCl.laid (fun p c hm => R.whole.done.path p (hCl.keys ▸ mem_keys_of_mem hm)) (fun ns c hN hm => ?_)
      (fun p c hm => ?_) (fun c hm he => ?_) (List.Perm.refl _) R.whole.run (by decide +kernel) (fun p c hm => ?_) (mem_of_get? hc)
    · obtain ⟨m, ht, he⟩ := hCl.tables _ c hm
      rw [he]
      exact parent_tables t.spec (world_plain t) hN ht
    · obtain ⟨m, ht, he⟩ := hCl.tables _ c hm
      rw [he]
      exact ht.has
    · obtain ⟨m, ht, he'⟩ := hCl.tables _ c hm
      rw [he', firstTable_attr ht.has] at he
      have hi := ht.inst
      rw [Option.some.inj he] at hi
      cases R.whole.done.world _ hi.symm
    · obtain ⟨n, ht, he⟩ := hCl.tables _ c hm
      rw [he]
      exact three_has t.spec ht (by decide +kernel)
  have key : ∀ c v, Chosen (classes B).1 (classes B).2 (classes B).1.bases A_ENABLED c v → ∀ p, (p, c) ∈ (classes B).2 → v ≠ .list [] := by
    intro c v h
    induction h with
    | here h1 _ => exact fun p hp => hfirst p _ _ hp h1
    | last h1 _ => exact fun p hp => hfirst p _ _ hp h1
    | next _ _ h3 _ ih =>
      intro p hp
      obtain ⟨q, hq⟩ := instSource_mem h3
      exact ih q hq
  exact key c _ hch p (mem_of_get? hc)
end

section
variable {b : List Str} {layers' : List Comp.LayerNodes} {B B' : BSt} {g g' : Classes}

theorem no_stale_again (h : Reopened b layers layers') (t : Tidy layers) (hs : NoStale layers) : NoStale layers' := by
  have hm := Rebuilding.reopened_matching h t.spec t.good (fun n hn => (t.world n hn).1)
  intro l' hl' ns n' hN h0 hmem x hx
  have hw := not_world hN h0
  have hn' : n' ∈ stack layers' (render ns) :=
    List.mem_filterMap.2 ⟨l', hl', get?_of_mem ((ReopenRun.tidy_again h t).spec.ok l' hl') hmem⟩
  have : ∃ n ∈ stack layers (render ns), listed n = listed n' := by
    have hE := ReopenRun.stack_orders h t.good hw
    generalize stack layers (render ns) = u at hE
    generalize stack layers' (render ns) = v at hE hn'
    clear hx
    induction hE with
    | nil => cases hn'
    | @cons m m' ms ms' h1 _ ih =>
      rcases List.mem_cons.1 hn' with rfl | hm
      · exact ⟨m, List.mem_cons_self, h1⟩
      · obtain ⟨k, k1, k2⟩ := ih hm
        exact ⟨k, List.mem_cons_of_mem _ k1, k2⟩
  obtain ⟨n, hn, e⟩ := this
  obtain ⟨l, hl, hnl⟩ := mem_stack hn
  obtain ⟨h1, h2⟩ := hs l hl ns n hN h0 hnl x (e ▸ hx)
  exact ⟨h1, fun h => h2 ((hm.empty _).2 h)⟩

theorem orders_again (h : Reopened b layers layers') (t : Tidy layers) {ns : List Str} (hN : Names ns) (h0 : ns ≠ []) :
    ownOrders layers ns = ownOrders layers' ns :=
  ReopenRun.merged_same (not_world hN h0) (ReopenRun.stack_orders h t.good (not_world hN h0))

theorem over_again (h : Reopened b layers layers') (t : Tidy layers) (R : Ran layers B g) (R' : Ran layers' B' g') {p : Str} (hw : p ≠ ['/'])
    {c c' : Nat} (hc : get? p (classes B).2 = some c) (hc' : get? p (classes B').2 = some c') {a : Str} (ha : a ∈ [A_EXECUTE_IN, A_START]) :
    Alike (g.attr c a) (g'.attr c' a) := by
  have htr : ∀ a ∈ [A_EXECUTE_IN, A_START], a ∈ TRACKED := by decide +kernel
  obtain ⟨h1, h2⟩ := read_over t R hc ha
  obtain ⟨h3, h4⟩ := read_over (ReopenRun.tidy_again h t) R' hc' ha
  have := Reopen.strongest_akin (ReopenRun.stack_carried h t.good hw) (htr a ha)
  generalize strongest (stack layers p) a = x at this h1 h2
  generalize strongest (stack layers' p) a = y at this h3 h4
  cases this with
  | none => exact .inr ⟨h2 rfl, h4 rfl⟩
  | some h5 => rw [h1 _ rfl, h3 _ rfl]; exact h5

theorem same_tree (h : Reopened b layers layers') (t : Tidy layers) (C : Separate (instPathOf layers)) (R : Ran layers B g) (R' : Ran layers' B' g')
    (hen : ∀ ns c c', Names ns → get? (render ns) (classes B).2 = some c → get? (render ns) (classes B').2 = some c' →
      Alike (g.attr c A_ENABLED) (g'.attr c' A_ENABLED)) :
    SameTree (execTable (classes B).2 g) (execTable (classes B').2 g') := by
  have t' := ReopenRun.tidy_again h t
  have hm := Rebuilding.reopened_matching h t.spec t.good (fun n hn => (t.world n hn).1)
  have C' : Separate (instPathOf layers') := hm.paths ▸ C
  have path : ∀ {ls : List Comp.LayerNodes} {B : BSt} {g : Classes}, Ran ls B g → ∀ {p : Str}, p ∈ keys (classes B).2 → ∃ ns, Names ns ∧ p = render ns :=
    fun R p hp => R.whole.done.path p (R.whole.classed.keys ▸ hp)
  have hpaths : ∀ p, p ∈ keys (classes B).2 ↔ p ∈ keys (classes B').2 := by
    have key : ∀ ns, Names ns → (render ns ∈ keys (classes B).2 ↔ render ns ∈ keys (classes B').2) := by
      intro ns hN
      rw [← get?_isSome, ← get?_isSome, R.whole.nodes hN, R'.whole.nodes hN]
      simp only [ne_eq, hm.empty, hm.drawn]
    intro p
    constructor
    · intro hp
      obtain ⟨ns, hN, rfl⟩ := path R hp
      exact (key ns hN).1 hp
    · intro hp
      obtain ⟨ns, hN, rfl⟩ := path R' hp
      exact (key ns hN).2 hp
  refine ⟨fun p => ?_, fun p n m hw hn hm' => ?_, fun p => ?_⟩
  · rw [ReopenRun.keys_execTable, ReopenRun.keys_execTable, hpaths p]
  · rw [childOrder_of t R hn, childOrder_of t' R' hm']
    rw [ReopenRun.get?_execTable] at hn hm'
    obtain ⟨c, e1, rfl⟩ := Option.map_eq_some_iff.1 hn
    obtain ⟨c', e2, rfl⟩ := Option.map_eq_some_iff.1 hm'
    obtain ⟨ns, hN, rfl⟩ := path R (mem_keys_of_mem (mem_of_get? e1))
    have h0 : ns ≠ [] := fun e => hw (by rw [e]; rfl)
    refine ⟨?_, fun s => ?_⟩
    · by_cases hd : ∃ s, Drawn layers ns s
      · obtain ⟨s, hd⟩ := hd
        have hs0 : s ≠ [] := by
          obtain ⟨q, r, u, -, rfl, hi, -, -⟩ := hd
          exact fun h => source_below C hi (List.append_eq_nil_iff.1 h).1
        rw [R.copied ns s hN hd, R'.copied ns s hN (hm.drawn.1 hd), orders_again h t hN h0,
          orders_again h t (drawn_iff.1 hd).names.1 hs0]
      · rw [R.plain ns hN (keys_lite R e1) hd, R'.plain ns hN (keys_lite R' e2) (by simpa only [← hm.drawn] using hd),
          orders_again h t hN h0]
    · show g.attr c A_EXECUTE_IN = .str s ↔ g'.attr c' A_EXECUTE_IN = .str s
      rcases over_again h t R R' hw e1 e2 (a := A_EXECUTE_IN) (by simp) with e | ⟨e, e'⟩
      · rw [e]
      · constructor
        · intro he; rw [he] at e; cases e
        · intro he; rw [he] at e'; cases e'
  · unfold Off
    rw [ReopenRun.get?_execTable, ReopenRun.get?_execTable]
    have hp := hpaths p
    rw [← get?_isSome, ← get?_isSome] at hp
    cases e1 : get? p (classes B).2 with
    | none =>
      rw [e1] at hp
      cases e2 : get? p (classes B').2 with
      | none => simp
      | some c' => rw [e2] at hp; simp at hp
    | some c =>
      rw [e1] at hp
      cases e2 : get? p (classes B').2 with
      | none => rw [e2] at hp; simp at hp
      | some c' =>
        obtain ⟨ns, hN, rfl⟩ := path R (mem_keys_of_mem (mem_of_get? e1))
        have hal := hen ns c c' hN e1 e2
        have n1 := enabled_not_empty t C R e1
        have n2 := enabled_not_empty t' C' R' e2
        simp only [Option.map_some, Option.some.injEq, exists_eq_left']
        rcases hal with e | ⟨e, e'⟩
        · rw [e]
        · have hnone : ∀ v : Val, v.hasOpinion = false → v ≠ .list [] → v = .none := by
            intro v h1 h2
            unfold Val.hasOpinion at h1
            split at h1
            · rfl
            · exact absurd rfl h2
            · cases h1
          rw [hnone _ e n1, hnone _ e' n2]

/-- Both builds, with the same tree to execute. -/
theorem ran_again (h : Reopened b layers layers') (t : Tidy layers) (hs : NoStale layers) (hn : Named layers)
    (C : Separate (instPathOf layers)) (same same' : Str → Str → Bool) {kids kids' : List Str → Str → List Str} (hk : GivesKids kids)
    (hk' : GivesKids kids') (real real' : Option Str) :
    ∃ n, ∀ fuel ≥ n, ∃ B g B' g', compose same kids real fuel layers = some (g, (classes B).2) ∧
      compose same' kids' real' fuel layers' = some (g', (classes B').2) ∧ Ran layers B g ∧ Ran layers' B' g' ∧
      SameTree (execTable (classes B).2 g) (execTable (classes B').2 g') ∧
      ∀ ns c c', Names ns → get? (render ns) (classes B).2 = some c → get? (render ns) (classes B').2 = some c' →
        ∀ x ∈ ["_enabled".toList, "_comment".toList, "_code".toList], Alike (g.attr c x) (g'.attr c' x) := by
  have hm := Rebuilding.reopened_matching h t.spec t.good (fun n hn => (t.world n hn).1)
  obtain ⟨n1, h1⟩ := C145_reopened_partial h t.spec hn t.good (fun n hn => (t.world n hn).1) C same same' kids kids' hk hk' real real'
  obtain ⟨n2, h2⟩ := ran t hs hn C same hk real
  obtain ⟨n3, h3⟩ := ran (ReopenRun.tidy_again h t) (no_stale_again h t hs) (Rebuilding.reopened_named h t.good) (hm.paths ▸ C) same' hk' real'
  refine ⟨max n1 (max n2 n3), fun fuel hf => ?_⟩
  obtain ⟨g0, nodes, g1, nodes', a1, a2, a3, a4⟩ := h1 fuel (by omega)
  obtain ⟨B, g, b1, R⟩ := h2 fuel (by omega)
  obtain ⟨B', g', c1, R'⟩ := h3 fuel (by omega)
  rw [b1] at a1
  rw [c1] at a2
  obtain ⟨e1, e2⟩ := Prod.mk.inj (Option.some.inj a1)
  obtain ⟨e3, e4⟩ := Prod.mk.inj (Option.some.inj a2)
  subst e1 e2 e3 e4
  have hal : ∀ ns c c', Names ns → get? (render ns) (classes B).2 = some c → get? (render ns) (classes B').2 = some c' →
      ∀ x ∈ ["_enabled".toList, "_comment".toList, "_code".toList], Alike (g.attr c x) (g'.attr c' x) :=
    fun ns c c' hN hc hc' x hx => (a4 ns c c' hN hc hc').2 x hx (by rintro rfl n hn; exact (t.world n hn).2.1)
  exact ⟨B, g, B', g', b1, c1, R, R',
    same_tree h t C R R' fun ns c c' hN hc hc' => hal ns c c' hN hc hc' _ (show A_ENABLED ∈ _ by decide +kernel), hal⟩
end

end Executing
open Executing

/-- C148: the children of a node with a source are those of the source and those the layers list for it, each once; where
the layers list none of the names the source has, what they list comes first and then the children of the source in
the order they have there.  An instance of one layer which lists some of the names in their order has the order of the
source. -/
theorem C148_children {layers : List Comp.LayerNodes} (t : Tidy layers) (hs : NoStale layers) (hn : Named layers)
    (C : Separate (instPathOf layers)) (same : Str → Str → Bool) (kids : List Str → Str → List Str) (hk : GivesKids kids)
    (real : Option Str) :
    ∃ n, ∀ fuel ≥ n, ∃ g nodes, Build.compose same kids real fuel layers = some (g, nodes) ∧
      ∀ ns s c d, Names ns → Drawn layers ns s → get? (render ns) nodes = some c → get? (render s) nodes = some d →
      ∃ o os : List Str, g.attr c "_child_order".toList = .list (o.map Val.str) ∧
        g.attr d "_child_order".toList = .list (os.map Val.str) ∧
        o.Nodup ∧ (∀ x, x ∈ o ↔ x ∈ os ∨ ∃ m ∈ stack layers (render ns), x ∈ listed m) ∧
        ((∀ m ∈ stack layers (render ns), ∀ x ∈ listed m, x ∉ os) →
          ∃ own, o = own ++ os ∧ ∀ x ∈ own, ∃ m ∈ stack layers (render ns), x ∈ listed m) ∧
        (∀ m, stack layers (render ns) = [m] → (listed m).Sublist os → o = os) := by
  obtain ⟨n, h⟩ := ran t hs hn C same hk real
  refine ⟨n, fun fuel hf => ?_⟩
  obtain ⟨B, g, h1, R⟩ := h fuel hf
  exact ⟨g, _, h1, fun ns s c d hN hd hc hc' => children_of t hs C R hN hd hc hc'⟩

/-- C148: an instance no layer puts nodes below has the descendants of its source, in the same order, each with the code
of the one it copies and switched off if that is.  Missing: instances with nodes of their own
(`C148_order_violation`). -/
theorem C148_descendants_partial {layers : List Comp.LayerNodes} (t : Tidy layers) (hs : NoStale layers) (hn : Named layers)
    (C : Separate (instPathOf layers)) (same : Str → Str → Bool) (kids : List Str → Str → List Str) (hk : GivesKids kids)
    (real : Option Str) :
    ∃ n, ∀ fuel ≥ n, ∃ g nodes, Build.compose same kids real fuel layers = some (g, nodes) ∧
      ∀ q r, InstOf (instPathOf layers) q r → stack layers (render r) ≠ [] →
      (∀ u, u ≠ [] → stack layers (render (q ++ u)) = []) → ∀ ks, KidsOk (execTable nodes g) ks →
      ∃ N, ∀ f ≥ N, ∃ T : List (List Str),
        Tree.descendantsOrdered (execTable nodes g) ks false f (render r) = some (T.map (fun u => render (r ++ u))) ∧
        Tree.descendantsOrdered (execTable nodes g) ks false f (render q) = some (T.map (fun u => render (q ++ u))) ∧
        ∀ u ∈ T, (Off (execTable nodes g) (render (q ++ u)) ↔ Off (execTable nodes g) (render (r ++ u))) ∧
          ∃ c d, get? (render (q ++ u)) nodes = some c ∧ get? (render (r ++ u)) nodes = some d ∧
            g.attr c "_code".toList = g.attr d "_code".toList := by
  obtain ⟨n, h⟩ := ran t hs hn C same hk real
  refine ⟨n, fun fuel hf => ?_⟩
  obtain ⟨B, g, h1, R⟩ := h fuel hf
  refine ⟨g, _, h1, fun q r hi hr hb ks K => ?_⟩
  obtain ⟨N, hN⟩ := mirror_desc t hs C R hi hr hb K
  refine ⟨N, fun f hf => ?_⟩
  obtain ⟨T, e1, e2, e3⟩ := hN f hf
  refine ⟨T, e1, e2, fun u hu => ?_⟩
  obtain ⟨u0, hu1, hd⟩ := e3 u hu
  have hsaid : ∀ a, saidOf layers (q ++ u) a = none := fun a => by unfold saidOf; rw [hb u u0]; rfl
  have hNq := names_append.2 ⟨hi.1, hu1⟩
  exact ⟨mirror_off t C R hNq hd (hsaid _), mirror_said t C R hNq hd (by decide +kernel) (hsaid _)⟩

/-- C148: where both are roots nothing executes after, executing the instance runs the copies of just the nodes which
executing the source runs, in the same order.  Missing: instances with nodes of their own, or with an enabled state of
their own. -/
theorem C148_executes_partial {layers : List Comp.LayerNodes} (t : Tidy layers) (hs : NoStale layers) (hn : Named layers)
    (C : Separate (instPathOf layers)) (same : Str → Str → Bool) (kids : List Str → Str → List Str) (hk : GivesKids kids)
    (real : Option Str) :
    ∃ n, ∀ fuel ≥ n, ∃ g nodes, Build.compose same kids real fuel layers = some (g, nodes) ∧
      ∀ x y, InstOf (instPathOf layers) [y] [x] → stack layers (render [x]) ≠ [] →
      (∀ u, u ≠ [] → stack layers (render (y :: u)) = []) → saidOf layers [y] "_enabled".toList = none →
      (∀ l ∈ layers, ∀ p n, (p, n) ∈ l → getAttr n "_execute_in".toList ≠ .str (render [x]) ∧
        getAttr n "_execute_in".toList ≠ .str (render [y])) → ∀ ks, KidsOk (execTable nodes g) ks →
      ∃ N, ∀ f ≥ N, ∃ T : List (List Str),
        Exec.execOrder (execTable nodes g) ks f (render [x]) = some (T.map (fun u => render (x :: u))) ∧
        Exec.execOrder (execTable nodes g) ks f (render [y]) = some (T.map (fun u => render (y :: u))) := by
  obtain ⟨n, h⟩ := ran t hs hn C same hk real
  refine ⟨n, fun fuel hf => ?_⟩
  obtain ⟨B, g, h1, R⟩ := h fuel hf
  refine ⟨g, _, h1, fun x y hi hr hb hen hex ks K => ?_⟩
  have hd0 : Drawn layers [y] [x] := ⟨[y], [x], [], by simp, by simp, hi, (by intro x hx; cases hx), hr⟩
  have hxN := (Building.drawn_iff.1 hd0).names.1
  have hT := Executing.table_ok t hs R
  have hk1 : render [x] ∈ keys (execTable (Build.classes B).2 g) := by
    rw [ReopenRun.keys_execTable]; exact get?_isSome.1 ((R.whole.nodes hxN).2 (.inl hr))
  have hk2 : render [y] ∈ keys (execTable (Build.classes B).2 g) := by
    rw [ReopenRun.keys_execTable]; exact get?_isSome.1 ((R.whole.nodes hi.1).2 (.inr ⟨_, hd0⟩))
  have alone : ∀ z, Names [z] → render [z] ∈ keys (execTable (Build.classes B).2 g) →
      (∀ q, ¬ IsNextRoot (execTable (Build.classes B).2 g) (render [z]) q) →
      ∃ N, ∀ f ≥ N, ∀ D, Tree.descendantsOrdered (execTable (Build.classes B).2 g) ks false f (render [z]) = some D →
        Exec.execOrder (execTable (Build.classes B).2 g) ks f (render [z]) = some (rootBlock (execTable (Build.classes B).2 g) D (render [z])) := by
    intro z hz hzk hno
    have hcyc : ¬ Cyclic (execTable (Build.classes B).2 g) (render [z]) := by
      have none_below : ∀ c, ¬ Below (IsNextRoot (execTable (Build.classes B).2 g)) (render [z]) c := by
        intro c hc
        induction hc with
        | one h => exact hno _ h
        | step _ _ ih => exact ih
      rintro ⟨c, rfl | hc, h'⟩
      · exact none_below _ h'
      · exact none_below _ hc
    obtain ⟨N, hN⟩ := C36_terminates _ ks hT K z [] hz hzk hcyc
    refine ⟨N, fun f hf D hD => ?_⟩
    obtain ⟨roots, D', a1, a2, -⟩ := hN f hf
    have hroots : roots = [render [z]] := by
      cases (C37_chain _ _ _).1 ⟨f, a1⟩ with
      | last _ => rfl
      | cons hq _ => exact absurd hq (hno _)
    subst hroots
    have := C36_from_root _ ks hT K f z hz hzk _ a1 D' a2
    rw [this]
    have e := a2 (render [z]) (by simp)
    rw [hD] at e
    cases e
    simp
  obtain ⟨N1, hN1⟩ := alone x hxN hk1 (no_next t hs R fun l hl p n hm => (hex l hl p n hm).1)
  obtain ⟨N2, hN2⟩ := alone y hi.1 hk2 (no_next t hs R fun l hl p n hm => (hex l hl p n hm).2)
  obtain ⟨N3, hN3⟩ := mirror_desc t hs C R hi hr hb K
  refine ⟨max N1 (max N2 N3), fun f hf => ?_⟩
  obtain ⟨T, e1, e2, e3⟩ := hN3 f (by omega)
  obtain ⟨M, -, m1, m2⟩ := block_same (nodes := execTable (Build.classes B).2 g) hi.1 hxN (fun u hu => (e3 u hu).2.1)
    (mirror_off t C R hi.1 hd0 hen) (fun u hu => by
      obtain ⟨u0, hu1, hd⟩ := e3 u hu
      exact mirror_off t C R (names_append.2 ⟨hi.1, hu1⟩) hd (by unfold saidOf; rw [show [y] ++ u = y :: u from rfl, hb u u0]; rfl))
  exact ⟨M, by rw [hN1 f (by omega) _ e1, m1]; rfl, by rw [hN2 f (by omega) _ e2, m2]; rfl⟩

/-- C149: a stage with separate instances which is saved and opened again composes and executes, from any node, the same
nodes in the same order, if no two nodes execute after the same root.  Missing: graphs with two such nodes
(`C138_two_next_violation`), instances of instances, and child orders with names of nodes which are gone. -/
theorem C149_order_partial {b : List Str} {layers layers' : List Comp.LayerNodes} (h : Reopened b layers layers') (t : Tidy layers)
    (hs : NoStale layers) (hn : Named layers) (C : Separate (instPathOf layers))
    (hone : ∀ p q n m s, p ≠ q → n ∈ stack layers p → m ∈ stack layers q → getAttr n "_execute_in".toList = .str s →
      getAttr m "_execute_in".toList ≠ .str s) (same same' : Str → Str → Bool)
    (kids kids' : List Str → Str → List Str) (hk : GivesKids kids) (hk' : GivesKids kids') (real real' : Option Str) :
    ∃ n, ∀ fuel ≥ n, ∃ g nodes g' nodes', Build.compose same kids real fuel layers = some (g, nodes) ∧
      Build.compose same' kids' real' fuel layers' = some (g', nodes') ∧
      ∀ ka kb, KidsOk (execTable nodes g) ka → KidsOk (execTable nodes' g') kb → ∀ f start,
        Exec.execOrder (execTable nodes g) ka f start = Exec.execOrder (execTable nodes' g') kb f start := by
  have hm := Rebuilding.reopened_matching h t.spec t.good (fun n hn => (t.world n hn).1)
  obtain ⟨n, hr⟩ := ran_again h t hs hn C same same' hk hk' real real'
  refine ⟨n, fun fuel hf => ?_⟩
  obtain ⟨B, g, B', g', h1, h2, R, R', S, -⟩ := hr fuel hf
  refine ⟨g, _, g', _, h1, h2, fun ka kb KA KB f start => ?_⟩
  refine C137_order_partial (Executing.table_ok t hs R) (Executing.table_ok (ReopenRun.tidy_again h t) (no_stale_again h t hs) R') S
    (Executing.table_listed t hs C R) ?_ KA KB f start
  intro p n q m s hp hq _ _ e1 e2
  obtain ⟨n', hn', f1⟩ := exec_said t R hp e1
  obtain ⟨m', hm', f2⟩ := exec_said t R hq e2
  cases Classical.em (p = q) with
  | inl e => exact e
  | inr e => exact absurd f2 (hone p q n' m' s e hn' hm' f1)

/-- C149: and with but one start point among the layers, executing without a given node runs the same. -/
theorem C149_execute_partial {σ : Type} {b : List Str} {layers layers' : List Comp.LayerNodes} (h : Reopened b layers layers')
    (t : Tidy layers) (hs : NoStale layers) (hn : Named layers) (C : Separate (instPathOf layers))
    (hone : ∀ p q n m s, p ≠ q → n ∈ stack layers p → m ∈ stack layers q → getAttr n "_execute_in".toList = .str s →
      getAttr m "_execute_in".toList ≠ .str s)
    (hstart : ∀ p q n m, p ≠ q → n ∈ stack layers p → m ∈ stack layers q → (getAttr n "_start_point".toList).truthy = true →
      (getAttr m "_start_point".toList).truthy = false) (same same' : Str → Str → Bool)
    (kids kids' : List Str → Str → List Str) (hk : GivesKids kids) (hk' : GivesKids kids') (real real' : Option Str) :
    ∃ n, ∀ fuel ≥ n, ∃ g nodes g' nodes', Build.compose same kids real fuel layers = some (g, nodes) ∧
      Build.compose same' kids' real' fuel layers' = some (g', nodes') ∧
      ∀ ka kb, KidsOk (execTable nodes g) ka → KidsOk (execTable nodes' g') kb → ∀ f (look : σ → Str → Option Val)
        (run : Str → σ → Exec.Times → Exec.Outcome × σ × Exec.Times) (clock : σ → Int) (arg : Start.Arg) (s : σ) (ts : Exec.Times),
        Start.execute (execTable nodes g) ka (startPoint nodes g) f look run clock arg s ts =
          Start.execute (execTable nodes' g') kb (startPoint nodes' g') f look run clock arg s ts := by
  have hm := Rebuilding.reopened_matching h t.spec t.good (fun n hn => (t.world n hn).1)
  obtain ⟨n, hr⟩ := ran_again h t hs hn C same same' hk hk' real real'
  refine ⟨n, fun fuel hf => ?_⟩
  obtain ⟨B, g, B', g', h1, h2, R, R', S, -⟩ := hr fuel hf
  have hno : ∀ v : Val, v.hasOpinion = false → v.truthy = false := by
    intro v hv
    unfold Val.hasOpinion at hv
    split at hv
    · rfl
    · rfl
    · cases hv
  have point : ∀ p, (startPoint (Build.classes B).2 g p).truthy = true → ∃ m ∈ stack layers p, (getAttr m A_START).truthy = true := by
    intro p hp
    unfold startPoint at hp
    split at hp
    · rename_i c hc
      obtain ⟨k1, k2⟩ := read_over t R hc (a := A_START) (by simp)
      cases hst : strongest (stack layers p) A_START with
      | none => rw [hno _ (k2 hst)] at hp; cases hp
      | some m => exact ⟨m, List.mem_of_find?_eq_some hst, by rw [← k1 m hst]; exact hp⟩
    · cases hp
  refine ⟨g, _, g', _, h1, h2, fun ka kb KA KB f look run clock arg s ts => ?_⟩
  refine C137_start_partial (Executing.table_ok t hs R) (Executing.table_ok (ReopenRun.tidy_again h t) (no_stale_again h t hs) R') S
    (Executing.table_listed t hs C R) ?_ KA KB f _ _ (fun p hp hw => ?_) (fun p q _ _ _ _ hp hq => ?_) look run clock arg s ts
  · intro p n q m s hp hq _ _ e1 e2
    obtain ⟨n', hn', f1⟩ := exec_said t R hp e1
    obtain ⟨m', hm', f2⟩ := exec_said t R hq e2
    cases Classical.em (p = q) with
    | inl e => exact e
    | inr e => exact absurd f2 (hone p q n' m' s e hn' hm' f1)
  · have hp' := (S.paths p).1 hp
    rw [ReopenRun.keys_execTable] at hp hp'
    obtain ⟨c, e1⟩ := Option.isSome_iff_exists.1 (get?_isSome.2 hp)
    obtain ⟨c', e2⟩ := Option.isSome_iff_exists.1 (get?_isSome.2 hp')
    unfold startPoint
    rw [e1, e2]
    simp only []
    rcases over_again h t R R' hw e1 e2 (a := A_START) (by simp) with e | ⟨e, e'⟩
    · rw [e]
    · rw [hno _ e, hno _ e']
  · obtain ⟨n', hn', f1⟩ := point p hp
    obtain ⟨m', hm', f2⟩ := point q hq
    cases Classical.em (p = q) with
    | inl e => exact e
    | inr e =>
      have := hstart p q n' m' e hn' hm' f1
      rw [show "_start_point".toList = A_START from rfl, f2] at this
      cases this


/-- `/A` is an instance of `/B`, which has an attribute, code and two children; with `over` a layer gives `/A` an `n` and a `y` of its own. -/
def exMirror (over : Bool) : Comp.LayerNodes :=
  [exOpenSpec [] "" ["B", "A"] [(A_EXECUTE_IN, .none), (A_START, .none)],
    (render [['B']], exInheritSpec [['B']] .none (.list [.str "add".toList])
      [(A_CHILD_ORDER, .list [.str ['y'], .str ['x']]), (A_EXECUTE_IN, .none), (A_START, .none), (['x'], .num 7)]),
    exOpenSpec ["B", "y"] "" [] [(A_EXECUTE_IN, .none), (A_START, .none)],
    exOpenSpec ["B", "x"] "" [] [(A_EXECUTE_IN, .none), (A_START, .none)],
    exOpenSpec ["A"] "/B" (if over then ["n", "y"] else []) [(A_EXECUTE_IN, .none), (A_START, .none)]] ++
    if over then [exOpenSpec ["A", "n"] "" [] [(A_EXECUTE_IN, .none), (A_START, .none)],
      exOpenSpec ["A", "y"] "" [] [(A_EXECUTE_IN, .none), (A_START, .none)]] else []

/-- The order in which a node of the example executes. -/
def exMirrorRun (over : Bool) (p : Str) : Option (List Str) :=
  (Build.compose (fun a b => a == b) Proxies.kidPaths none 20 [exMirror over]).bind fun r =>
    Exec.execOrder (execTable r.2 r.1) (fun q => (execTable r.2 r.1).filter (fun e => e.2.parent = q)) 20 p

/-- `/A` executes the copies of what `/B` executes. -/
example : exMirrorRun false "/B".toList = some (["/B", "/B/y", "/B/x"].map String.toList) ∧
    exMirrorRun false "/A".toList = some (["/A", "/A/y", "/A/x"].map String.toList) := by decide +kernel

/-- C148: an instance with a new child and a node of its own for the first child of its source executes that behind the copy of
the second. -/
theorem C148_order_violation :
    exMirrorRun true "/B".toList = some (["/B", "/B/y", "/B/x"].map String.toList) ∧
    exMirrorRun true "/A".toList = some (["/A", "/A/n", "/A/x", "/A/y"].map String.toList) := by decide +kernel

def exMirrorOrder (p : Str) : List Str :=
  if p = ['/'] then ["B".toList, "A".toList] else if p = "/B".toList then [['y'], ['x']] else []

def exMirrorNames : List (List Str) := [[], [['B']], [['B'], ['y']], [['B'], ['x']], [['A']]]

theorem exMirror_names : ∀ ns ∈ exMirrorNames, Names ns := by
  unfold Names IsName; decide +kernel

theorem exMirror_at {p : Str} (h : p ∈ keys (exMirror false)) : ∃ ns ∈ exMirrorNames, p = render ns := by
  have : ∀ p ∈ keys (exMirror false), p ∈ exMirrorNames.map render := by decide +kernel
  obtain ⟨ns, hm, e⟩ := List.mem_map.1 (this p h)
  exact ⟨ns, hm, e.symm⟩

theorem exMirror_good : GoodNodes (exMirror false) exMirrorOrder where
  ok := by
    show List.Nodup (keys (exMirror false))
    decide +kernel
  path := fun p hp => let ⟨ns, h, e⟩ := exMirror_at hp; ⟨ns, exMirror_names ns h, e.symm ▸ rfl⟩
  node := by
    intro p n hn
    have := mem_of_get? hn
    simp only [exMirror, exOpenSpec, List.mem_cons, List.not_mem_nil, or_false, Prod.mk.injEq, List.append_nil, Bool.false_eq_true, if_false] at this
    rcases this with ⟨rfl, rfl⟩ | ⟨rfl, rfl⟩ | ⟨rfl, rfl⟩ | ⟨rfl, rfl⟩ | ⟨rfl, rfl⟩ <;>
    exact ⟨by unfold Dict.Ok; decide +kernel, by rfl, by rfl⟩
  listed := by
    have : ∀ p ∈ keys (exMirror false), p ≠ Path.WORLD → (exMirrorOrder p).Nodup ∧
      ∀ q ∈ keys (exMirror false), Path.parentPath q = p → Path.nodeName q ∈ exMirrorOrder p := by
      decide +kernel
    exact this

theorem exMirror_spec : SpecNodes [exMirror false] where
  ok := by intro l hl; rw [List.mem_singleton.1 hl]; exact exMirror_good.ok
  path := by
    intro l hl p n hm
    rw [List.mem_singleton.1 hl] at hm
    exact exMirror_good.path p (mem_keys.2 ⟨n, hm⟩)
  parent := by
    intro l hl ns n hN hm
    rw [List.mem_singleton.1 hl] at hm
    simp only [exMirror, exOpenSpec, List.mem_cons, List.not_mem_nil, or_false, Prod.mk.injEq, List.append_nil, Bool.false_eq_true, if_false] at hm
    rcases hm with ⟨e, rfl⟩ | ⟨e, rfl⟩ | ⟨e, rfl⟩ | ⟨e, rfl⟩ | ⟨e, rfl⟩ <;>
    rw [Path.render_inj hN (by unfold Names IsName; decide +kernel) e] <;> rfl
  keys := by
    intro l hl p n hm a ha
    rw [List.mem_singleton.1 hl] at hm
    have : ∀ e ∈ exMirror false, ∀ a ∈ ["_instance", "_enabled", "_comment", "_code"].map String.toList, (get? a e.2).isSome = true := by
      decide +kernel
    exact this _ hm a ha

theorem exMirror_tidy : Tidy [exMirror false] where
  spec := exMirror_spec
  good := fun T hT => ⟨exMirrorOrder, by rw [List.mem_singleton.1 hT]; exact exMirror_good⟩
  attrs := by
    intro T hT p n hm
    rw [List.mem_singleton.1 hT] at hm
    have : ∀ e ∈ exMirror false, (get? "_execute_in".toList e.2).isSome = true ∧ (get? "_start_point".toList e.2).isSome = true := by
      decide +kernel
    exact this _ hm
  closed := by
    intro T hT ns x hN h0 hx
    rw [List.mem_singleton.1 hT] at hx ⊢
    obtain ⟨ms, hm, e⟩ := exMirror_at hx
    have := Path.render_inj hN (exMirror_names ms hm) e
    have key : ∀ ms ∈ exMirrorNames, ms.dropLast ≠ [] → render ms.dropLast ∈ keys (exMirror false) := by decide +kernel
    have := key ms hm
    rw [← ‹ns ++ [x] = ms›, List.dropLast_concat] at this
    exact this h0
  world := by decide +kernel
  enabled := by
    intro T hT p n hm e
    rw [List.mem_singleton.1 hT] at hm
    have : ∀ e ∈ exMirror false, (match getAttr e.2 "_enabled".toList with | .none => true | _ => false) = true := by
      decide +kernel
    have := this _ hm
    simp only [e] at this
    cases this

theorem exMirror_stale : NoStale [exMirror false] := by
  intro l hl ns n hN h0 hm
  rw [List.mem_singleton.1 hl] at hm
  obtain ⟨ms, h1, e⟩ := exMirror_at (mem_keys.2 ⟨n, hm⟩)
  have := render_inj hN (exMirror_names ms h1) e
  subst this
  have hg := get?_of_mem exMirror_good.ok hm
  have : ∀ ns ∈ exMirrorNames, ns ≠ [] → ∀ x ∈ listed ((get? (render ns) (exMirror false)).getD []),
      Names [x] ∧ stack [exMirror false] (render (ns ++ [x])) ≠ [] := by
    unfold Names IsName; decide +kernel
  have := this ns h1 h0
  rw [hg] at this
  exact this

theorem exMirror_named : Named [exMirror false] := by
  intro l hl p n hm
  rw [List.mem_singleton.1 hl] at hm
  simp only [exMirror, exOpenSpec, List.mem_cons, List.not_mem_nil, or_false, Prod.mk.injEq, List.append_nil, Bool.false_eq_true, if_false] at hm
  rcases hm with ⟨-, rfl⟩ | ⟨-, rfl⟩ | ⟨-, rfl⟩ | ⟨-, rfl⟩ | ⟨-, rfl⟩ <;> exact ⟨_, rfl⟩

theorem exMirror_path {ns : List Str} {i : Option Str} (hN : Names ns) (h : instPathOf [exMirror false] ns = some i) :
    (ns = [['A']] ∧ i = some "/B".toList) ∨
      (ns ∈ ([[], [['B']], [['B'], ['y']], [['B'], ['x']]] : List (List Str)) ∧ (i = none ∨ i = some [])) := by
  have hne : stack [exMirror false] (render ns) ≠ [] := fun he => by rw [Building.instPathOf_none.2 he] at h; cases h
  obtain ⟨m, t, hmt⟩ := List.exists_cons_of_ne_nil hne
  obtain ⟨l, hl, hm⟩ := mem_stack (n := m) (p := render ns) (layers := [exMirror false]) (by rw [hmt]; simp)
  rw [List.mem_singleton.1 hl] at hm
  obtain ⟨ns', h3, h1⟩ := exMirror_at (mem_keys.2 ⟨_, hm⟩)
  have := render_inj hN (exMirror_names ns' h3) h1
  subst this
  have e1 : ∀ ns ∈ exMirrorNames, (ns = [['A']] ∧ instPathOf [exMirror false] ns = some (some "/B".toList)) ∨
      (ns ∈ ([[], [['B']], [['B'], ['y']], [['B'], ['x']]] : List (List Str)) ∧
        (instPathOf [exMirror false] ns = some none ∨ instPathOf [exMirror false] ns = some (some []))) := by
    decide +kernel
  rcases e1 ns h3 with ⟨e, e'⟩ | ⟨e, e' | e'⟩ <;> rw [e'] at h <;> cases h
  · exact .inl ⟨e, rfl⟩
  · exact .inr ⟨e, .inl rfl⟩
  · exact .inr ⟨e, .inr rfl⟩

theorem exMirror_is : InstOf (instPathOf [exMirror false]) [['A']] [['B']] :=
  ⟨exMirror_names _ (by decide +kernel), _, by decide +kernel, exKept_points⟩

theorem exMirror_inst {p r : List Str} (h : InstOf (instPathOf [exMirror false]) p r) : p = [['A']] ∧ r = [['B']] := by
  obtain ⟨h1, i, h2, h3⟩ := h
  rcases exMirror_path h1 h2 with ⟨rfl, e⟩ | ⟨-, e | e⟩
  · cases e; exact ⟨rfl, pointsTo_unique h3 exKept_points⟩
  · cases e
  · cases e; exact absurd h3 not_pointsTo_nil

theorem exMirror_separate : Separate (instPathOf [exMirror false]) where
  apart := by
    intro p r q s h h'
    obtain ⟨rfl, rfl⟩ := exMirror_inst h
    obtain ⟨rfl, rfl⟩ := exMirror_inst h'
    decide
  means := by
    intro p i hp h
    rcases exMirror_path hp h with ⟨rfl, e⟩ | ⟨-, e | e⟩
    · cases e; exact .inr ⟨_, exKept_points⟩
    · cases e
    · cases e; exact .inl rfl
  own := by
    intro p r t i h h0 ht hN
    obtain ⟨rfl, rfl⟩ := exMirror_inst h
    cases t with
    | nil => exact absurd rfl h0
    | cons x t =>
      rcases exMirror_path (names_append.2 ⟨h.1, ht⟩) hN with ⟨e, -⟩ | ⟨e, -⟩ <;> simp at e

theorem exMirror_bare : ∀ u, u ≠ [] → stack [exMirror false] (render ("A".toList :: u)) = [] := by
  intro u h0
  have key : ∀ p ∈ keys (exMirror false), ("/A/".toList.isPrefixOf p) = false := by decide +kernel
  cases hst : stack [exMirror false] (render ("A".toList :: u)) with
  | nil => rfl
  | cons m ms =>
    obtain ⟨l, hl, hm⟩ := mem_stack (n := m) (p := render ("A".toList :: u)) (layers := [exMirror false]) (by rw [hst]; simp)
    rw [List.mem_singleton.1 hl] at hm
    have := key _ (mem_keys.2 ⟨_, hm⟩)
    cases u with
    | nil => exact absurd rfl h0
    | cons v u => simp [render, slashed, List.isPrefixOf] at this

theorem exMirror_silent {k : Str} (hk : k ∈ ["_execute_in".toList, "_start_point".toList]) {p : Str} {n : Dict Str Val}
    (hm : n ∈ stack [exMirror false] p) : getAttr n k = .none := by
  obtain ⟨l, hl, hm⟩ := mem_stack hm
  rw [List.mem_singleton.1 hl] at hm
  have : ∀ e ∈ exMirror false, ∀ k ∈ ["_execute_in".toList, "_start_point".toList],
      (match getAttr e.2 k with | .none => true | _ => false) = true := by decide +kernel
  have := this _ hm k hk
  split at this
  · assumption
  · cases this

/-- The example meets the hypotheses of C148. -/
example : ∃ n, ∀ fuel ≥ n, ∃ g nodes, Build.compose (fun a b => a == b) Proxies.kidPaths none fuel [exMirror false] = some (g, nodes) ∧
    ∀ ks, KidsOk (execTable nodes g) ks → ∃ N, ∀ f ≥ N, ∃ T : List (List Str),
      Exec.execOrder (execTable nodes g) ks f (render ["B".toList]) = some (T.map (fun u => render ("B".toList :: u))) ∧
      Exec.execOrder (execTable nodes g) ks f (render ["A".toList]) = some (T.map (fun u => render ("A".toList :: u))) := by
  obtain ⟨n, h⟩ := C148_executes_partial exMirror_tidy exMirror_stale exMirror_named exMirror_separate
    (fun a b => a == b) Proxies.kidPaths C79_scan none
  refine ⟨n, fun fuel hf => ?_⟩
  obtain ⟨g, nodes, h1, h2⟩ := h fuel hf
  refine ⟨g, nodes, h1, h2 _ _ exMirror_is (by decide +kernel) exMirror_bare (by decide +kernel) ?_⟩
  intro l hl p n hm
  rw [List.mem_singleton.1 hl] at hm
  have : ∀ e ∈ exMirror false, (match getAttr e.2 "_execute_in".toList with | .none => true | _ => false) = true := by decide +kernel
  have := this _ hm
  split at this
  · rename_i e; rw [e]; exact ⟨nofun, nofun⟩
  · cases this

example := C148_children exMirror_tidy exMirror_stale exMirror_named exMirror_separate (fun a b => a == b) Proxies.kidPaths
  C79_scan none

example := C148_descendants_partial exMirror_tidy exMirror_stale exMirror_named exMirror_separate (fun a b => a == b)
  Proxies.kidPaths C79_scan none

/-- The instance of the example has a source whose children it shows. -/
example : Drawn [exMirror false] [['A']] [['B']] :=
  ⟨[['A']], [['B']], [], rfl, rfl, exMirror_is, (by intro x hx; cases hx), by decide +kernel⟩

/-- Saved and opened again, the example meets the hypotheses of C149. -/
example : ∃ layers', ∃ _ : Reopened [] [exMirror false] layers', ∀ p q n m, p ≠ q → n ∈ stack [exMirror false] p →
    m ∈ stack [exMirror false] q → (getAttr n "_start_point".toList).truthy = true →
      (getAttr m "_start_point".toList).truthy = false := by
  obtain ⟨layers', h, _⟩ := C128_reopens [] fun T (hT : T ∈ [exMirror false]) =>
    ⟨exMirrorOrder, by rw [List.mem_singleton.1 hT]; exact exMirror_good⟩
  exact ⟨layers', h, fun p q n m _ hn _ e => by rw [exMirror_silent (by simp) hn] at e; cases e⟩

/-- Saved and opened again, the example executes the same. -/
example : ∃ layers', Reopened [] [exMirror false] layers' ∧ ∃ n, ∀ fuel ≥ n, ∃ g nodes g' nodes',
    Build.compose (fun a b => a == b) Proxies.kidPaths none fuel [exMirror false] = some (g, nodes) ∧
    Build.compose (fun a b => a == b) Proxies.kidPaths none fuel layers' = some (g', nodes') ∧
    ∀ ka kb, KidsOk (execTable nodes g) ka → KidsOk (execTable nodes' g') kb → ∀ f start,
      Exec.execOrder (execTable nodes g) ka f start = Exec.execOrder (execTable nodes' g') kb f start := by
  have hg : ∀ T ∈ [exMirror false], ∃ order, GoodNodes T order :=
    fun T hT => ⟨exMirrorOrder, by rw [List.mem_singleton.1 hT]; exact exMirror_good⟩
  obtain ⟨layers', h, _⟩ := C128_reopens [] hg
  exact ⟨layers', h, C149_order_partial h exMirror_tidy exMirror_stale exMirror_named exMirror_separate
    (fun p q n m s _ hn _ e => by rw [exMirror_silent (by simp) hn] at e; cases e)
    (fun a b => a == b) (fun a b => a == b) Proxies.kidPaths Proxies.kidPaths C79_scan C79_scan none none⟩

end Nxt.Props
