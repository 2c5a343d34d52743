import Verif.Model.Arcs
import Verif.Spec.Arcs
import Verif.Props.BuildExec
import Verif.Props.Targeted
import Verif.Model.AttrSource
/-!
# Property C152: what stands behind a composed node
-/
namespace Nxt.Props
open Dict NodeData Mro Inherit Spec Path

namespace Behind
open Build Building Executing Arcs

variable {layers : List Comp.LayerNodes} {B : BSt} {g : Classes}

theorem drawn_ne (C : Separate (instPathOf layers)) {ns s : List Str} (h : Drawn layers ns s) : ns ≠ [] := by
  rintro rfl
  obtain ⟨q, r, t, e, -, hi, -, -⟩ := h
  obtain ⟨rfl, rfl⟩ := List.append_eq_nil_iff.1 e.symm
  exact (C.apart [] r [] r hi hi).1 List.nil_prefix

/-- The parent of a node is a node, unless it is the world. -/
theorem parent_there (t : Tidy layers) (C : Separate (instPathOf layers)) {ms : List Str} {x : Str} (hN : Names (ms ++ [x]))
    (h0 : ms ≠ []) (h : stack layers (render (ms ++ [x])) ≠ [] ∨ ∃ s, Drawn layers (ms ++ [x]) s) :
    stack layers (render ms) ≠ [] ∨ ∃ s, Drawn layers ms s := by
  have up : ∀ {a : List Str} {y : Str}, Names (a ++ [y]) → a ≠ [] → stack layers (render (a ++ [y])) ≠ [] →
      stack layers (render a) ≠ [] := by
    intro a y hN h0 h
    obtain ⟨m, tl, e⟩ := List.exists_cons_of_ne_nil h
    obtain ⟨l, hl, hm⟩ := mem_stack (n := m) (p := render (a ++ [y])) (layers := layers) (by rw [e]; simp)
    obtain ⟨od, hgood⟩ := t.good l hl
    obtain ⟨m', hm'⟩ := mem_keys.1 (t.closed l hl a y hN h0 (mem_keys_of_mem hm))
    have : m' ∈ stack layers (render a) := List.mem_filterMap.2 ⟨l, hl, get?_of_mem hgood.ok hm'⟩
    intro hnil
    rw [hnil] at this
    cases this
  rcases h with h | ⟨s, q, r, t', e, rfl, hi, ht, hs⟩
  · exact .inl (up hN h0 h)
  · rcases Path.eq_nil_or_snoc t' with rfl | ⟨t', y, rfl⟩
    · rw [List.append_nil] at e
      subst e
      refine .inl (up hN h0 ?_)
      obtain ⟨-, i, hi, -⟩ := hi
      exact fun h => by rw [instPathOf_none.2 h] at hi; cases hi
    · rw [← List.append_assoc] at e hs
      obtain ⟨rfl, -⟩ := List.append_inj' e rfl
      have hr : r ≠ [] := source_below C hi
      have hn : Names (r ++ t' ++ [y]) := by
        obtain ⟨-, i, -, -, hr, -⟩ := hi
        rw [List.append_assoc]
        exact names_append.2 ⟨hr, ht⟩
      exact .inr ⟨r ++ t', q, r, t', rfl, rfl, hi, (names_append.1 ht).1, up hn (by simp [hr]) hs⟩

/-- The nearest node above is the parent. -/
theorem near_parent (t : Tidy layers) (C : Separate (instPathOf layers)) (R : Ran layers B g) {ms : List Str} {x : Str} {c : Nat}
    (hN : Names (ms ++ [x])) (hc : get? (render (ms ++ [x])) (classes B).2 = some c) :
    nearestAbove (classes B).2 (ms ++ [x]) = get? (render ms) (classes B).2 := by
  rw [nearestAbove_snoc]
  by_cases h0 : ms = []
  · subst h0
    rw [lineage_nil]
    simp only [List.findSome?_cons, List.findSome?_nil]
    cases get? (render []) (classes B).2 <;> rfl
  · obtain ⟨tl, e⟩ := lineage_head ms
    rw [e, List.findSome?_cons]
    have hk : render (ms ++ [x]) ∈ keys B.lite.nodes := R.whole.classed.keys ▸ mem_keys_of_mem (mem_of_get? hc)
    rw [R.whole.done.nodes _ hN] at hk
    have : render ms ∈ keys B.lite.nodes := by
      rw [R.whole.done.nodes _ (names_append.1 hN).1]
      rcases parent_there t C hN h0 (by simpa only [ne_eq, instPathOf_none, drawn_iff] using hk) with h | h
      · exact .inl (by simpa only [ne_eq, instPathOf_none] using h)
      · exact .inr (by simpa only [drawn_iff] using h)
    rw [← R.whole.classed.keys, ← get?_isSome] at this
    obtain ⟨a, ha⟩ := Option.isSome_iff_exists.1 this
    rw [ha]

/-- The bases of a composed node: its specs, its parent and its source. -/
theorem bases_of (t : Tidy layers) (C : Separate (instPathOf layers)) (R : Ran layers B g) {ns : List Str} {c : Nat}
    (hN : Names ns) (hc : get? (render ns) (classes B).2 = some c) :
    ∃ links, g.bases c = (classes B).1.bases c ++ links ∧
      (∀ s, Drawn layers ns s → ∃ b, get? (render s) (classes B).2 = some b ∧
        links = (if ns.dropLast <+: s then [] else (get? (render ns.dropLast) (classes B).2).toList) ++ [b]) ∧
      ((¬ ∃ s, Drawn layers ns s) → links = (if ns = [] then none else get? (render ns.dropLast) (classes B).2).toList) := by
  have W := R.whole
  have hCl := W.classed
  have hp : ∀ p c, (p, c) ∈ (classes B).2 → ∃ ns, Names ns ∧ p = render ns := fun p c hm =>
    W.done.path p (hCl.keys ▸ mem_keys_of_mem hm)
  obtain ⟨links, hL, hO, -, hI⟩ := postProxy_done hCl.laid hp
    (fun ns c hN hm => by
      obtain ⟨m, ht, he⟩ := hCl.tables _ c hm
      rw [he]
      exact parent_tables t.spec (world_plain t) hN ht)
    (fun p c hm => by
      obtain ⟨m, ht, he⟩ := hCl.tables _ c hm
      rw [he]
      exact ht.has)
    (C16_stable_sort (fun pc : Str × Nat => (trace (classes B).2 (classes B).1 pc.1).length) (classes B).2).1 W.run
  have hm := mem_of_get? hc
  have near : nearestAbove (classes B).2 ns = if ns = [] then none else get? (render ns.dropLast) (classes B).2 := by
    rcases Path.eq_nil_or_snoc ns with rfl | ⟨ms, x, rfl⟩
    · rfl
    · rw [near_parent t C R hN hc, if_neg (by simp), List.dropLast_concat]
  have hi := hI ns c hN hm
  rw [instSource_srcOf C W.done hCl ns c hN hm] at hi
  refine ⟨links c, (hL.comp _ c hm).2.2, fun s hd => ?_, fun hd => ?_⟩
  · have hs := (srcOf_some C).2 (drawn_iff.1 hd)
    have hn := (drawn_iff.1 hd).names
    obtain ⟨-, b, hb⟩ := (sources C W.done hCl.keys).node ns s hs
    have hb' := get?_of_mem hL.ok hb
    refine ⟨b, hb', ?_⟩
    rw [hs, Option.bind_some, hb'] at hi
    have h0 := drawn_ne C hd
    obtain ⟨lb, hlb, hcase⟩ := links_exact hL hO hN hm ⟨_, hb⟩ hi
    have hord := W.order s b hn.1 hb
    have hlb' : lb = blocks (classes B).2 (classes B).1.bases (lineage s) ++ [0] := by
      rw [hlb.det ((Laid.mro_iff hL (hL.comp _ b hb).2.1).1 hord),
        chain_none (fun m hm => (sources C W.done hCl.keys).plain ns s m hs hm)]
    have hmem : ∀ a, get? (render ns.dropLast) (classes B).2 = some a → (a ∈ lb ↔ ns.dropLast <+: s) := by
      intro a ha
      have hNd : Names ns.dropLast := fun n h => hN n (List.dropLast_subset _ h)
      rw [hlb']
      constructor
      · intro h
        rcases List.mem_append.1 h with h | h
        · have h2 : a ∈ blocks (classes B).2 (classes B).1.bases [ns.dropLast] := by
            rw [blocks_cons, blockOf_eq ha]; simp
          obtain ⟨x, hx, hx'⟩ := Laid.block_same hL (fun x hx => lineage_names hn.1 hx)
            (fun x hx => by rw [List.mem_singleton.1 hx]; exact hNd) h h2
          rw [List.mem_singleton.1 hx'] at hx
          exact (mem_lineage s _).1 hx
        · have := (hL.comp _ a (mem_of_get? ha)).1
          rw [List.mem_singleton.1 h] at this
          omega
      · intro h
        refine List.mem_append_left _ (List.mem_flatMap.2 ⟨_, (mem_lineage s _).2 h, ?_⟩)
        rw [blockOf_eq ha]; simp
    rw [near, if_neg h0] at hcase
    rcases hcase with ⟨h1, h2⟩ | ⟨p, h1, h2, h3⟩
    · rw [h1]
      cases ha : get? (render ns.dropLast) (classes B).2 with
      | none => split <;> rfl
      | some a => rw [if_pos ((hmem a ha).1 (h2 a ha))]; rfl
    · rw [h3, h1, if_neg (fun h => h2 ((hmem p h1).2 h))]; rfl
  · have hs : srcOf (instPathOf layers) ns = none := by
      cases h : srcOf (instPathOf layers) ns with
      | none => rfl
      | some s => exact absurd ⟨s, drawn_iff.2 ((srcOf_some C).1 h)⟩ hd
    rw [hs] at hi
    rw [← near]
    exact hi

/-! ### The texts of the classes behind a node -/

theorem name_text {ns : List Str} (hN : Names ns) : nodeName (render ns) = nameText ns := by
  rcases Path.eq_nil_or_snoc ns with rfl | ⟨ms, x, rfl⟩
  · rfl
  · rw [(C09_parent_name_join ms x hN).2.1]
    unfold nameText
    rw [List.getLast?_concat]
    rfl

theorem parent_path_text {ns : List Str} (hN : Names ns) (h0 : ns ≠ []) : parentPath (render ns) = parentText ns := by
  rcases Path.eq_nil_or_snoc ns with rfl | ⟨ms, x, rfl⟩
  · exact absurd rfl h0
  · rw [(C09_parent_name_join ms x hN).1]
    unfold parentText
    rw [if_neg h0, List.dropLast_concat]

theorem read_inst (t : Tidy layers) (R : Ran layers B g) {p : Str} {c : Nat} (hc : get? p (classes B).2 = some c) :
    Build.textOf (g.attr c A_INSTANCE) = Proxies.instOf B.lite p := by
  have W := R.whole
  obtain ⟨n, hn, -⟩ := classed_tab t.spec W.kept W.done.ok (mem_of_get? hc)
  have ht := W.kept.tab p n hn
  rw [read t W hc (v := n.attr A_INSTANCE) (fun m hm => by
    rw [hn] at hm
    cases hm
    exact firstTable_attr ht.has) (by decide +kernel)]
  exact ht.inst

/-- The tables of the specs of a node. -/
theorem spec_tables (t : Tidy layers) (R : Ran layers B g) {p : Str} {c : Nat} (hc : get? p (classes B).2 = some c) :
    ∃ n, get? p B.tab = some n ∧ ((classes B).1.bases c).map g.own = n.bases := by
  have W := R.whole
  obtain ⟨n, hn, he⟩ := classed_tab t.spec W.kept W.done.ok (mem_of_get? hc)
  refine ⟨n, hn, ?_⟩
  obtain ⟨-, h2⟩ := List.cons.inj he
  rw [← h2]
  refine List.map_congr_left fun b hb => W.specs b ?_
  exact (W.classed.laid.spec _ c (mem_of_get? hc) b hb).2.2.2

/-- What is read of a spec is what its table has. -/
theorem read_spec (R : Ran layers B g) {p : Str} {c b : Nat} (hc : get? p (classes B).2 = some c)
    (hb : b ∈ (classes B).1.bases c) {k : Str} {v : Val} (hv : get? k (g.own b) = some v) : g.attr b k = v := by
  obtain ⟨links, hL⟩ := R.whole.laid
  obtain ⟨-, h2, h3, -⟩ := hL.spec _ c (mem_of_get? hc) b hb
  unfold Classes.attr Classes.attr?
  rw [(Laid.mro_iff hL h2).2 (Laid.lin_other hL h3), Option.bind_some, List.findSome?_cons, hv]
  rfl

/-- A spec of a node has the parent and the name of the node. -/
theorem spec_own (t : Tidy layers) (hnm : Named layers) (C : Separate (instPathOf layers)) (R : Ran layers B g) {ns : List Str} (hN : Names ns) {c b : Nat}
    (hc : get? (render ns) (classes B).2 = some c) (hb : b ∈ (classes B).1.bases c) :
    get? A_PARENT (g.own b) = some (.str (parentText ns)) ∧ get? A_NAME (g.own b) = some (.str (nameText ns)) := by
  obtain ⟨n, hn, he⟩ := spec_tables t R hc
  have ht := R.whole.kept.tab _ n hn
  have hmem : g.own b ∈ n.bases := he ▸ List.mem_map.2 ⟨b, hb, rfl⟩
  by_cases h : stack layers (render ns) = []
  · obtain ⟨s, cm, en, h1, hs, h3, ms, a, e, hM, -⟩ := ht.made h
    rw [h1, List.mem_singleton] at hmem
    have hkey : render ns ∈ keys B.lite.nodes := R.whole.classed.keys ▸ mem_keys_of_mem (mem_of_get? hc)
    have h0 : ns ≠ [] := by
      rintro rfl
      rw [R.whole.done.nodes _ hN] at hkey
      rcases hkey with hk | ⟨s, hk⟩
      · exact hk (instPathOf_none.2 h)
      · exact drawn_ne C (drawn_iff.2 hk) rfl
    constructor
    · rw [← parent_path_text hN h0]
      exact hmem ▸ hs.parent
    · have := (R.shown _ n hn).name
      unfold firstTable at this
      rw [h1, List.findSome?_cons, h3 A_NAME (by decide +kernel) (by decide +kernel)] at this
      simp only [List.findSome?_cons, List.findSome?_nil] at this
      rw [← name_text hN]
      rw [hmem]
      generalize hx : get? A_NAME s = x at this
      cases x with
      | none => cases this
      | some v => exact this
  · rw [(ht.real h).1] at hmem
    obtain ⟨l, hl, hm⟩ := mem_stack hmem
    obtain ⟨od, hgood⟩ := t.good l hl
    refine ⟨t.spec.parent l hl ns _ hN hm, ?_⟩
    rw [← name_text hN]
    have := (hgood.node _ _ (get?_of_mem hgood.ok hm)).2.1
    obtain ⟨x, hx⟩ := hnm l hl _ _ hm
    have hx : get? A_NAME (g.own b) = some (.str x) := hx
    unfold getAttr at this
    rw [hx] at this
    rw [hx]
    exact congrArg some this

theorem spec_text (t : Tidy layers) (hnm : Named layers) (C : Separate (instPathOf layers)) (R : Ran layers B g) {ns : List Str} (hN : Names ns) {c b : Nat}
    (hc : get? (render ns) (classes B).2 = some c) (hb : b ∈ (classes B).1.bases c) :
    g.attr b A_PARENT = .str (parentText ns) ∧ g.attr b A_NAME = .str (nameText ns) :=
  ⟨read_spec R hc hb (spec_own t hnm C R hN hc hb).1, read_spec R hc hb (spec_own t hnm C R hN hc hb).2⟩

theorem file_refs {arc : Nat → Option Targeted.Arc} : ∀ {l : List Nat} {D : ArcDict}, (∀ b ∈ l, arc b = some .reference) →
    l.foldl (file arc) D = { D with refs := D.refs ++ l } := by
  intro l
  induction l with
  | nil => intro D _; simp
  | cons b l ih =>
    intro D h
    rw [List.foldl_cons, ih (fun x hx => h x (List.mem_cons_of_mem _ hx))]
    unfold file
    rw [h b List.mem_cons_self]
    simp

theorem drawn_apart (C : Separate (instPathOf layers)) {ns s : List Str} (h : Drawn layers ns s) : ¬ s <+: ns := by
  obtain ⟨q, r, t, rfl, rfl, hi, -, -⟩ := h
  rintro ⟨u, e⟩
  rw [List.append_assoc] at e
  rcases List.prefix_or_prefix_of_prefix ⟨_, e⟩ ⟨_, rfl⟩ with h | h
  · exact (C.apart q r q r hi hi).2 h
  · exact (C.apart q r q r hi hi).1 h

theorem drawn_inst (R : Ran layers B g) (t : Tidy layers) {ns s : List Str} {c : Nat} (hc : get? (render ns) (classes B).2 = some c)
    (h : Drawn layers ns s) : g.attr c A_INSTANCE = .str (render s) := by
  have := read_inst t R hc
  rw [R.whole.done.inst ns s (drawn_iff.1 h)] at this
  unfold Build.textOf at this
  split at this
  · rename_i x e; rw [e, Option.some.inj this]
  · cases this

/-- The source of a node is in its trace. -/
theorem source_traced (t : Tidy layers) (C : Separate (instPathOf layers)) (R : Ran layers B g) {ns s : List Str} {c b : Nat}
    (hc : get? (render ns) (classes B).2 = some c) (hb : get? (render s) (classes B).2 = some b)
    (h : Drawn layers ns s) : isSource (classes B).2 g (render ns) b = true := by
  have hkey : render s ∈ keys (classes B).2 := mem_keys_of_mem (mem_of_get? hb)
  have hmem : render s ∈ trace (classes B).2 g (render ns) := by
    unfold trace
    have h1 : instPath (classes B).2 g (render ns) = some (render s) := by
      unfold instPath
      rw [hc]
      simp only [drawn_inst R t hc h]
    have h2 : instPath (classes B).2 g (render s) = none ∨ ∃ i, instPath (classes B).2 g (render s) = some i ∧ i ∉ keys (classes B).2 := by
      have hn := (drawn_iff.1 h).names
      have hno : ¬ ∃ u, Copies (instPathOf layers) s u := by
        rw [← srcOf_none]
        exact (sources C R.whole.done R.whole.classed.keys).plain ns s s ((srcOf_some C).2 (drawn_iff.1 h)) (List.prefix_refl _)
      have hr := read_inst t R hb
      unfold instPath
      rw [hb]
      simp only
      unfold Build.textOf at hr
      split
      · rename_i i e
        rw [e] at hr
        refine .inr ⟨i, rfl, ?_⟩
        rw [R.whole.classed.keys]
        exact R.whole.done.other s hn.1 hno i hr.symm
      · exact .inl rfl
    obtain ⟨m, hm⟩ : ∃ m, (classes B).2.length = m + 1 := by
      cases hl : (classes B).2 with
      | nil => rw [hl] at hc; cases hc
      | cons a l => exact ⟨l.length, rfl⟩
    rw [hm]
    unfold Dirty.instanceSources
    rw [h1]
    simp only [hkey, List.not_mem_nil, not_false_eq_true, and_self, if_true, List.nil_append]
    unfold Dirty.instanceSources
    rcases h2 with h2 | ⟨i, h2, h3⟩
    · rw [h2]; simp
    · rw [h2]; simp [h3]
  unfold isSource
  rw [List.any_eq_true]
  exact ⟨_, hmem, by rw [hb]; simp⟩

theorem arc_text (t : Tidy layers) (R : Ran layers B g) {ns ms : List Str} (hN : Names ns) {c b : Nat}
    (hc : get? (render ns) (classes B).2 = some c) (hb : g.attr b A_PARENT = .str (parentText ms) ∧ g.attr b A_NAME = .str (nameText ms))
    (is : Str → Str → Bool) : arcOf is (classes B).2 g (render ns) c b =
      Targeted.getArc is (isSource (classes B).2 g (render ns) b) (parentText ns) (nameText ns) (text (g.attr c A_INSTANCE))
        (parentText ms) (nameText ms) := by
  unfold arcOf
  rw [read_parent t R hN hc, read_name t R hc, hb.1, hb.2, name_text hN]
  rfl

theorem node_text (t : Tidy layers) (R : Ran layers B g) {ms : List Str} (hN : Names ms) {b : Nat}
    (hb : get? (render ms) (classes B).2 = some b) :
    g.attr b A_PARENT = .str (parentText ms) ∧ g.attr b A_NAME = .str (nameText ms) :=
  ⟨read_parent t R hN hb, by rw [read_name t R hb, name_text hN]⟩

theorem arc_ref (t : Tidy layers) (hnm : Named layers) (C : Separate (instPathOf layers)) (R : Ran layers B g) {ns : List Str}
    (hN : Names ns) {c b : Nat} (hc : get? (render ns) (classes B).2 = some c) (hb : b ∈ (classes B).1.bases c)
    (is : Str → Str → Bool) : arcOf is (classes B).2 g (render ns) c b = some .reference := by
  rw [arc_text t R hN hc (spec_text t hnm C R hN hc hb)]
  generalize text (g.attr c A_INSTANCE) = i
  exact (C98_reference _ _ i ns ns hN hN).2 rfl

theorem arc_parent (t : Tidy layers) (R : Ran layers B g) {ns : List Str}
    (hN : Names ns) (h0 : ns ≠ []) {c b : Nat} (hc : get? (render ns) (classes B).2 = some c)
    (hb : get? (render ns.dropLast) (classes B).2 = some b)
    (is : Str → Str → Bool) : arcOf is (classes B).2 g (render ns) c b = some .parent := by
  have hNd : Names ns.dropLast := fun n h => hN n (List.dropLast_subset _ h)
  rw [arc_text t R hN hc (node_text t R hNd hb)]
  exact (C98_parent _ _ _ ns _ hN hNd).2 ⟨h0, rfl⟩

theorem arc_inst (t : Tidy layers) (C : Separate (instPathOf layers)) (R : Ran layers B g) {ns s : List Str}
    (hN : Names ns) {c b : Nat} (hc : get? (render ns) (classes B).2 = some c) (hd : Drawn layers ns s)
    (hb : get? (render s) (classes B).2 = some b) (is : Str → Str → Bool) :
    arcOf is (classes B).2 g (render ns) c b = some .inst := by
  have hn := (drawn_iff.1 hd).names
  rw [arc_text t R hN hc (node_text t R hn.1 hb), drawn_inst R t hc hd]
  refine (C98_instance_partial _ _ ns s s hN hn.1 hn.1 ?_ ?_).2 (.inl (source_traced t C R hc hb hd))
  · rintro rfl; exact drawn_apart C hd (List.prefix_refl _)
  · rintro rfl; exact drawn_apart C hd (List.dropLast_prefix _)

theorem filed (t : Tidy layers) (hnm : Named layers) (C : Separate (instPathOf layers)) (R : Ran layers B g) {ns : List Str}
    (hN : Names ns) {c : Nat} (hc : get? (render ns) (classes B).2 = some c) (is : Str → Str → Bool) :
    FiledArcs layers (classes B).2 g.own (g.bases c) ns (arcDict (arcOf is (classes B).2 g (render ns) c) (g.bases c)) := by
  obtain ⟨links, e, h1, h2⟩ := bases_of t C R hN hc
  obtain ⟨n, hn, hown⟩ := spec_tables t R hc
  have ht := R.whole.kept.tab _ n hn
  have hlen : ((classes B).1.bases c).length = n.bases.length := by rw [← hown, List.length_map]
  have href : arcDict (arcOf is (classes B).2 g (render ns) c) (g.bases c) =
      links.foldl (file (arcOf is (classes B).2 g (render ns) c)) { refs := (classes B).1.bases c } := by
    unfold arcDict
    rw [e, List.foldl_append, file_refs (fun b hb => arc_ref t hnm C R hN hc hb is)]
    rfl
  have hl : stack layers (render ns) ≠ [] → ((classes B).1.bases c).map g.own = stack layers (render ns) :=
    fun h => by rw [hown, (ht.real h).1]
  have hm : stack layers (render ns) = [] → ((classes B).1.bases c).length = 1 := by
    intro h
    obtain ⟨s, -, -, h1, -⟩ := ht.made h
    rw [hlen, h1]
    rfl
  by_cases hd : ∃ s, Drawn layers ns s
  · obtain ⟨s, hd⟩ := hd
    have uniq : ∀ s', Drawn layers ns s' → s' = s := fun s' h =>
      Option.some.inj (((srcOf_some C).2 (drawn_iff.1 h)).symm.trans ((srcOf_some C).2 (drawn_iff.1 hd)))
    obtain ⟨b, hb, hlinks⟩ := h1 s hd
    have h0 := drawn_ne C hd
    have hi := arc_inst t C R hN hc hd hb is
    by_cases hp : ns.dropLast <+: s
    · rw [if_pos hp, List.nil_append] at hlinks
      have hD : arcDict (arcOf is (classes B).2 g (render ns) c) (g.bases c) =
          { refs := (classes B).1.bases c, inst := some b } := by
        rw [href, hlinks]
        simp only [List.foldl_cons, List.foldl_nil]
        unfold file
        rw [hi]
      rw [hD, e, hlinks]
      exact ⟨by simp, hl, hm, fun h => absurd ⟨s, hd, hp⟩ h, fun _ => rfl,
        fun s' hs' => ⟨nofun, by rw [uniq s' hs', hb]⟩, fun h => absurd ⟨s, hd⟩ h, rfl⟩
    · rw [if_neg hp] at hlinks
      cases ha : get? (render ns.dropLast) (classes B).2 with
      | none =>
        rw [ha] at hlinks
        have hD : arcDict (arcOf is (classes B).2 g (render ns) c) (g.bases c) =
            { refs := (classes B).1.bases c, inst := some b } := by
          rw [href, hlinks]
          simp only [Option.toList_none, List.nil_append, List.foldl_cons, List.foldl_nil]
          unfold file
          rw [hi]
        rw [hD, e, hlinks]
        exact ⟨by simp, hl, hm, fun _ _ => ha.symm, fun _ => rfl,
          fun s' hs' => ⟨nofun, by rw [uniq s' hs', hb]⟩, fun h => absurd ⟨s, hd⟩ h, rfl⟩
      | some a =>
        rw [ha] at hlinks
        have hpa := arc_parent t R hN h0 hc ha is
        have hD : arcDict (arcOf is (classes B).2 g (render ns) c) (g.bases c) =
            { refs := (classes B).1.bases c, parent := some a, inst := some b } := by
          rw [href, hlinks]
          simp only [Option.toList_some, List.cons_append, List.nil_append, List.foldl_cons, List.foldl_nil]
          unfold file
          rw [hpa, hi]
        rw [hD, e, hlinks]
        refine ⟨by simp, hl, hm, fun _ _ => ha.symm, fun h => ?_,
          fun s' hs' => ⟨nofun, by rw [uniq s' hs', hb]⟩, fun h => absurd ⟨s, hd⟩ h, rfl⟩
        rcases h with h | ⟨s', hs', h⟩
        · exact absurd h h0
        · rw [uniq s' hs'] at h
          exact absurd h hp
  · have hlinks := h2 hd
    by_cases h0 : ns = []
    · rw [if_pos h0] at hlinks
      have hD : arcDict (arcOf is (classes B).2 g (render ns) c) (g.bases c) = { refs := (classes B).1.bases c } := by
        rw [href, hlinks]
        rfl
      rw [hD, e, hlinks]
      exact ⟨by simp, hl, hm, fun _ h => absurd h0 h, fun _ => rfl, fun s' hs' => absurd ⟨s', hs'⟩ hd, fun _ => rfl, rfl⟩
    · rw [if_neg h0] at hlinks
      cases ha : get? (render ns.dropLast) (classes B).2 with
      | none =>
        rw [ha] at hlinks
        have hD : arcDict (arcOf is (classes B).2 g (render ns) c) (g.bases c) = { refs := (classes B).1.bases c } := by
          rw [href, hlinks]
          rfl
        rw [hD, e, hlinks]
        exact ⟨by simp, hl, hm, fun _ _ => ha.symm, fun _ => rfl, fun s' hs' => absurd ⟨s', hs'⟩ hd, fun _ => rfl, rfl⟩
      | some a =>
        rw [ha] at hlinks
        have hpa := arc_parent t R hN h0 hc ha is
        have hD : arcDict (arcOf is (classes B).2 g (render ns) c) (g.bases c) =
            { refs := (classes B).1.bases c, parent := some a } := by
          rw [href, hlinks]
          simp only [Option.toList_some, List.foldl_cons, List.foldl_nil]
          unfold file
          rw [hpa]
        rw [hD, e, hlinks]
        refine ⟨by simp, hl, hm, fun _ _ => ha.symm, fun h => ?_, fun s' hs' => absurd ⟨s', hs'⟩ hd, fun _ => rfl, rfl⟩
        rcases h with h | ⟨s', hs', -⟩
        · exact absurd h h0
        · exact absurd ⟨s', hs'⟩ hd

/-- The instance path of a node without a source leads to no node. -/
theorem no_source (t : Tidy layers) (C : Separate (instPathOf layers)) (R : Ran layers B g) {ns : List Str}
    (hN : Names ns) (hd : ¬ ∃ s, Drawn layers ns s) {i r : Str} (hi : Proxies.instOf B.lite (render ns) = some i)
    (hr : expandRelative (some i) (render ns) = some r) : r ∉ keys B.lite.nodes := by
  have hi0 : i ≠ [] := by rintro rfl; cases hr
  have h0 : ns ≠ [] := by rintro rfl; exact hi0 (R.whole.done.world i hi)
  have hd' : ¬ ∃ s, Copies (instPathOf layers) ns s := by simpa only [← drawn_iff] using hd
  intro hin
  by_cases hh : i.head? = some '/'
  · rw [C13_absolute_unchanged _ _ hh] at hr
    cases hr
    exact R.whole.done.other ns hN hd' i hi hin
  · obtain ⟨rr, hrn, rfl⟩ := R.whole.done.path r hin
    have hrr : rr ≠ [] := by
      rintro rfl
      rcases Proxies.expand_shape hN h0 hi0 (by rintro rfl; exact hh rfl) hr with h | ⟨-, h⟩
      · cases h
      · exact h rfl
    have hpt := (Proxies.pointsTo_iff hN h0 hi0).2 ⟨hrr, hrn, hr⟩
    have hno : nodesOf B.lite ns = some (some i) := by
      unfold Proxies.instOf at hi
      unfold nodesOf
      cases hg : get? (render ns) B.lite.nodes with
      | none => rw [hg] at hi; cases hi
      | some m => rw [hg] at hi; exact congrArg some hi
    obtain ⟨q, r, u, hu, rfl, rfl, hq, -⟩ := sep_made_more C (R.sound ns i rr hN hno hpt)
    rcases (R.whole.done.nodes _ hrn).1 hin with h | ⟨s, q', r', u', e, -, hi', -⟩
    · exact hd' ⟨_, q, r, u, rfl, rfl, hq, hu, h⟩
    · rcases comparable e with h | h
      · exact (C.apart q r q' r' hq hi').2 h
      · exact (C.apart q r q' r' hq hi').1 h

end Behind

open Behind Arcs

/-- C152: in a composed stage with instances whose parents are all given, the base classes of every node are filed as
they should be. -/
theorem C152_arcs_partial {layers : List Comp.LayerNodes} (t : Tidy layers) (hs : NoStale layers) (hn : Named layers)
    (C : Separate (instPathOf layers)) (same : Str → Str → Bool) {kids : List Str → Str → List Str} (hk : GivesKids kids)
    (real : Option Str) :
    ∃ n, ∀ fuel ≥ n, ∃ g nodes, Build.compose same kids real fuel layers = some (g, nodes) ∧
      ∀ ns c is, Names ns → get? (render ns) nodes = some c →
        FiledArcs layers nodes g.own (g.bases c) ns (arcDict (arcOf is nodes g (render ns) c) (g.bases c)) := by
  obtain ⟨n, h⟩ := Executing.ran t hs hn C same hk real
  refine ⟨n, fun fuel hf => ?_⟩
  obtain ⟨B, g, h1, R⟩ := h fuel hf
  exact ⟨g, _, h1, fun ns c is hN hc => filed t hn C R hN hc is⟩

/-- C152: the spec of a node is that of the strongest layer with it; a node of no layer has a spec with its parent and its
name. -/
theorem C152_spec {layers : List Comp.LayerNodes} (t : Tidy layers) (hs : NoStale layers) (hn : Named layers)
    (C : Separate (instPathOf layers)) (same : Str → Str → Bool) {kids : List Str → Str → List Str} (hk : GivesKids kids)
    (real : Option Str) :
    ∃ n, ∀ fuel ≥ n, ∃ g nodes, Build.compose same kids real fuel layers = some (g, nodes) ∧
      ∀ ns c k, Names ns → get? (render ns) nodes = some c →
        ∃ s, nodeSpec (isSpec nodes) g.bases (k + 2) c = some s ∧
          (∀ p, get? p nodes ≠ some s) ∧ g.bases s = [0] ∧
          (stack layers (render ns) ≠ [] → (stack layers (render ns)).head? = some (g.own s)) ∧
          get? "_parent_path".toList (g.own s) = some (.str (parentText ns)) ∧
          get? "_name".toList (g.own s) = some (.str (nameText ns)) := by
  obtain ⟨n, h⟩ := Executing.ran t hs hn C same hk real
  refine ⟨n, fun fuel hf => ?_⟩
  obtain ⟨B, g, h1, R⟩ := h fuel hf
  refine ⟨g, _, h1, fun ns c k hN hc => ?_⟩
  obtain ⟨links, e, -, -⟩ := bases_of t C R hN hc
  obtain ⟨m, hm, hown⟩ := spec_tables t R hc
  have ht := R.whole.kept.tab _ m hm
  obtain ⟨b, tl, hbs⟩ := List.exists_cons_of_ne_nil (R.whole.classed.laid.nonempty _ c (mem_of_get? hc))
  have hb : b ∈ (Build.classes B).1.bases c := by rw [hbs]; simp
  obtain ⟨links', hL⟩ := R.whole.laid
  obtain ⟨hb0, -, h3, h4⟩ := hL.spec _ c (mem_of_get? hc) b hb
  have hns : isSpec (Build.classes B).2 c = false := by
    unfold isSpec
    rw [Bool.and_eq_false_iff]
    refine .inr ?_
    rw [Bool.not_eq_false', List.any_eq_true]
    exact ⟨_, mem_of_get? hc, by simp⟩
  have hsp : isSpec (Build.classes B).2 b = true := by
    unfold isSpec
    rw [Bool.and_eq_true, Bool.not_eq_true', List.any_eq_false]
    refine ⟨by simp; omega, fun x hx => ?_⟩
    intro hxe
    exact h4 x.1 (by have := beq_iff_eq.1 hxe; rw [← this]; exact hx)
  refine ⟨b, ?_, fun p hp => h4 p (mem_of_get? hp), h3, fun hst => ?_, spec_own t hn C R hN hc hb⟩
  · unfold nodeSpec
    rw [hns, e, hbs]
    simp only [Bool.false_eq_true, if_false, List.cons_append]
    unfold nodeSpec
    rw [hsp]
    rfl
  · rw [← (ht.real hst).1, ← hown, hbs]
    rfl

/-- C152: the instance of a node is the node it stands for, under that node's path; a node which stands for none has none. -/
theorem C152_instance_partial {layers : List Comp.LayerNodes} (t : Tidy layers) (hs : NoStale layers) (hn : Named layers)
    (C : Separate (instPathOf layers)) (same : Str → Str → Bool) {kids : List Str → Str → List Str} (hk : GivesKids kids)
    (real : Option Str) :
    ∃ n, ∀ fuel ≥ n, ∃ g nodes, Build.compose same kids real fuel layers = some (g, nodes) ∧
      ∀ ns c, Names ns → get? (render ns) nodes = some c →
        (∀ s, Drawn layers ns s → ∃ b, get? (render s) nodes = some b ∧
          safeInstance nodes g (render ns) c = (some b, some (render s))) ∧
        ((¬ ∃ s, Drawn layers ns s) → (safeInstance nodes g (render ns) c).1 = none) := by
  obtain ⟨n, h⟩ := Executing.ran t hs hn C same hk real
  refine ⟨n, fun fuel hf => ?_⟩
  obtain ⟨B, g, h1, R⟩ := h fuel hf
  refine ⟨g, _, h1, fun ns c hN hc => ⟨fun s hd => ?_, fun hd => ?_⟩⟩
  · obtain ⟨links, -, h2, -⟩ := bases_of t C R hN hc
    obtain ⟨b, hb, -⟩ := h2 s hd
    refine ⟨b, hb, ?_⟩
    unfold safeInstance
    simp only [drawn_inst R t hc hd, Proxies.expand_render, Option.bind_some, hb]
  · unfold safeInstance
    have hi := read_inst t R hc
    unfold Build.textOf at hi
    split
    · rename_i i e
      rw [e] at hi
      simp only
      cases hr : expandRelative (some i) (render ns) with
      | none => rfl
      | some r =>
        rw [Option.bind_some, get?_eq_none, R.whole.classed.keys]
        exact no_source t C R hN hd hi.symm hr
    · rfl

/-- C152: the source layer of a node, and of its spec, is the strongest layer which has the node. -/
theorem C152_layer (L : List (Option Str × Comp.LayerNodes)) (t : Tidy (L.map Prod.snd)) (hs : NoStale (L.map Prod.snd))
    (hn : Named (L.map Prod.snd)) (C : Separate (instPathOf (L.map Prod.snd))) (hl : SaysLayer L) (hd : (L.map Prod.fst).Nodup)
    (same : Str → Str → Bool) {kids : List Str → Str → List Str} (hk : GivesKids kids) (real : Option Str) :
    ∃ n, ∀ fuel ≥ n, ∃ g nodes, Build.compose same kids real fuel (L.map Prod.snd) = some (g, nodes) ∧
      ∀ ns c l, Names ns → get? (render ns) nodes = some c → L.find? (fun l => (get? (render ns) l.2).isSome) = some l →
        AttrSource.sourceLayer L g c = some l.2 ∧
        ∀ k s, nodeSpec (isSpec nodes) g.bases (k + 2) c = some s → AttrSource.sourceLayer L g s = some l.2 := by
  obtain ⟨n, h⟩ := Executing.ran t hs hn C same hk real
  refine ⟨n, fun fuel hf => ?_⟩
  obtain ⟨B, g, h1, R⟩ := h fuel hf
  refine ⟨g, _, h1, fun ns c l hN hc hfind => ?_⟩
  have hlm : l ∈ L := List.mem_of_find?_eq_some hfind
  obtain ⟨m, hm⟩ := Option.isSome_iff_exists.1 (by simpa using List.find?_some hfind)
  obtain ⟨tl, hst⟩ : ∃ tl, stack (L.map Prod.snd) (render ns) = m :: tl := by
    clear h1 hc R h hd hl C hn hs t hlm
    induction L with
    | nil => cases hfind
    | cons x L ih =>
      rw [List.find?_cons] at hfind
      unfold stack
      rw [List.map_cons, List.filterMap_cons]
      cases hx : get? (render ns) x.2 with
      | none =>
        rw [hx] at hfind
        exact ih hfind
      | some v =>
        rw [hx] at hfind
        cases hfind
        rw [hx] at hm
        cases hm
        exact ⟨_, rfl⟩
  have hmark : get? A_SOURCE_LAYER m = some (match l.1 with | some s => .str s | none => .none) :=
    hl l hlm _ m (mem_of_get? hm)
  have hlook : AttrSource.lookupLayer L l.1 = some l.2 := by
    clear h1 hc R h hl C hn hs t hfind hmark hst
    unfold AttrSource.lookupLayer
    induction L with
    | nil => cases hlm
    | cons x L ih =>
      rw [List.map_cons, List.nodup_cons] at hd
      rw [List.find?_cons]
      rcases List.mem_cons.1 hlm with rfl | hlm
      · simp
      · have : x.1 ≠ l.1 := fun e => hd.1 (e ▸ List.mem_map.2 ⟨l, hlm, rfl⟩)
        simp only [this, decide_false]
        exact ih hd.2 hlm
  have done : ∀ d, g.attr? d A_SOURCE_LAYER = some (match l.1 with | some s => .str s | none => .none) →
      AttrSource.sourceLayer L g d = some l.2 := by
    intro d hd
    unfold AttrSource.sourceLayer
    rw [hd]
    generalize l.1 = x at hlook
    cases x <;> exact hlook
  obtain ⟨B', hB', hown⟩ := spec_tables t R hc
  have ht := R.whole.kept.tab _ B' hB'
  obtain ⟨hb1, hb2⟩ := ht.real (by rw [hst]; simp)
  rw [hb1, hst] at hown
  obtain ⟨b, bs, hbs⟩ : ∃ b bs, (Build.classes B).1.bases c = b :: bs := by
    cases h : (Build.classes B).1.bases c with
    | nil => rw [h] at hown; cases hown
    | cons b bs => exact ⟨b, bs, rfl⟩
  rw [hbs, List.map_cons] at hown
  have hob := (List.cons.inj hown).1
  have hb : b ∈ (Build.classes B).1.bases c := by rw [hbs]; simp
  obtain ⟨links, e, -, -⟩ := bases_of t C R hN hc
  obtain ⟨links', hL⟩ := R.whole.laid
  obtain ⟨hb0, hlt, h3, h4⟩ := hL.spec _ c (mem_of_get? hc) b hb
  have hbattr : g.attr? b A_SOURCE_LAYER = some (match l.1 with | some s => .str s | none => .none) := by
    unfold Classes.attr?
    rw [(Laid.mro_iff hL hlt).2 (Laid.lin_other hL h3), Option.bind_some, List.findSome?_cons, hob, hmark]
  constructor
  · refine done c ?_
    obtain ⟨lst, hlst⟩ : ∃ lst, Lin g c lst := ⟨_, (Laid.mro_iff hL (hL.comp _ c (mem_of_get? hc)).2.1).1
      (R.whole.order ns c hN (mem_of_get? hc))⟩
    refine Laid.local_first hL (mem_of_get? hc) hlst ?_
    unfold tablesOf firstTable
    rw [hbs, List.findSome?_cons, R.whole.own c _ (by decide +kernel)]
    have hown' : get? A_SOURCE_LAYER ((Build.classes B).1.own c) = none := by
      obtain ⟨n', hn', he'⟩ := Build.classed_tab t.spec R.whole.kept R.whole.done.ok (mem_of_get? hc)
      rw [hB'] at hn'
      cases hn'
      rw [(List.cons.inj he').1, hb2 _ (by decide +kernel)]
      exact own_other _ _ (by decide +kernel) (by decide +kernel) (by decide +kernel) (by decide +kernel)
    rw [hown']
    simp only [List.map_cons, List.findSome?_cons, hob, hmark]
  · intro k s hsp
    have hns : isSpec (Build.classes B).2 c = false := by
      unfold isSpec
      rw [Bool.and_eq_false_iff]
      refine .inr ?_
      rw [Bool.not_eq_false', List.any_eq_true]
      exact ⟨_, mem_of_get? hc, by simp⟩
    have hbs' : isSpec (Build.classes B).2 b = true := by
      unfold isSpec
      rw [Bool.and_eq_true, Bool.not_eq_true', List.any_eq_false]
      refine ⟨by simp; omega, fun x hx => ?_⟩
      intro hxe
      exact h4 x.1 (by have := beq_iff_eq.1 hxe; rw [← this]; exact hx)
    have : s = b := by
      unfold nodeSpec at hsp
      rw [hns, e, hbs] at hsp
      simp only [Bool.false_eq_true, if_false, List.cons_append] at hsp
      unfold nodeSpec at hsp
      rw [hbs'] at hsp
      exact (Option.some.inj hsp).symm
    rw [this]
    exact done b hbattr

/-! ### Examples -/

/-- The paths of what stands behind a node of a composed layer. -/
structure ExBehind where
  refs : Nat
  parent : Option String
  inst : Option String
  other : Option String
  spec : Option String
  safe : Option String
  path : Option String
deriving DecidableEq

def exBehind (l : Comp.LayerNodes) (p : String) : Option ExBehind :=
  (Build.compose (fun a b => a == b) Proxies.kidPaths none 20 [l]).bind fun r =>
    (get? p.toList r.2).map fun c =>
      let D := arcDict (arcOf (fun a b => a == b) r.2 r.1 p.toList c) (r.1.bases c)
      let at? := fun d => (r.2.find? (fun e => e.2 == d)).map (fun e => String.ofList e.1)
      let i := safeInstance r.2 r.1 p.toList c
      { refs := D.refs.length, parent := D.parent.bind at?, inst := D.inst.bind at?, other := D.other.bind at?,
        spec := (nodeSpec (isSpec r.2) r.1.bases 2 c).map (fun s => String.ofList (text (r.1.attr s A_NAME))),
        safe := i.1.bind at?, path := i.2.map String.ofList }

/-- A copy below an instance has its parent and what it stands for behind it; the instance itself has no parent filed, the
world comes with its source. -/
example : exBehind (exMirror false) "/A/y" = some ⟨1, some "/A", some "/B/y", none, some "y", some "/B/y", some "/B/y"⟩ ∧
    exBehind (exMirror false) "/A" = some ⟨1, none, some "/B", none, some "A", some "/B", some "/B"⟩ ∧
    exBehind (exMirror false) "/B" = some ⟨1, some "/", none, none, some "B", none, none⟩ := by decide +kernel

theorem exMirror_drawn : Drawn [exMirror false] ["A".toList, "y".toList] ["B".toList, "y".toList] :=
  ⟨[['A']], [['B']], [['y']], rfl, rfl, exMirror_is, by unfold Names IsName; decide +kernel, by decide +kernel⟩

/-- The example meets the hypotheses of C152. -/
example : ∃ n, ∀ fuel ≥ n, ∃ g nodes,
    Build.compose (fun a b => a == b) Proxies.kidPaths none fuel [exMirror false] = some (g, nodes) ∧
    ∀ c, get? (render ["A".toList, "y".toList]) nodes = some c → ∃ b, get? (render ["B".toList, "y".toList]) nodes = some b ∧
      safeInstance nodes g (render ["A".toList, "y".toList]) c = (some b, some (render ["B".toList, "y".toList])) := by
  obtain ⟨n, h⟩ := C152_instance_partial exMirror_tidy exMirror_stale exMirror_named exMirror_separate (fun a b => a == b)
    C79_scan none
  refine ⟨n, fun fuel hf => ?_⟩
  obtain ⟨g, nodes, h1, h2⟩ := h fuel hf
  exact ⟨g, nodes, h1, fun c hc => (h2 _ c (by unfold Names IsName; decide +kernel) hc).1 _ exMirror_drawn⟩

/-- The example meets the hypotheses of C152. -/
example : ∃ n, ∀ fuel ≥ n, ∃ g nodes,
    Build.compose (fun a b => a == b) Proxies.kidPaths none fuel [exMirror false] = some (g, nodes) ∧
    ∀ c, get? (render ["A".toList, "y".toList]) nodes = some c →
      (arcDict (arcOf (fun a b => a == b) nodes g (render ["A".toList, "y".toList]) c) (g.bases c)).inst =
        get? (render ["B".toList, "y".toList]) nodes := by
  obtain ⟨n, h⟩ := C152_arcs_partial exMirror_tidy exMirror_stale exMirror_named exMirror_separate (fun a b => a == b)
    C79_scan none
  refine ⟨n, fun fuel hf => ?_⟩
  obtain ⟨g, nodes, h1, h2⟩ := h fuel hf
  exact ⟨g, nodes, h1, fun c hc => ((h2 _ c _ (by unfold Names IsName; decide +kernel) hc).inst _ exMirror_drawn).2⟩

/-- `C152_spec` is met by the example as well. -/
example : ∃ n, ∀ fuel ≥ n, ∃ g nodes,
    Build.compose (fun a b => a == b) Proxies.kidPaths none fuel [exMirror false] = some (g, nodes) ∧
    ∀ c, get? (render ["B".toList]) nodes = some c → ∃ s, nodeSpec (isSpec nodes) g.bases 2 c = some s ∧
      (stack [exMirror false] (render ["B".toList])).head? = some (g.own s) := by
  obtain ⟨n, h⟩ := C152_spec exMirror_tidy exMirror_stale exMirror_named exMirror_separate (fun a b => a == b) C79_scan none
  refine ⟨n, fun fuel hf => ?_⟩
  obtain ⟨g, nodes, h1, h2⟩ := h fuel hf
  refine ⟨g, nodes, h1, fun c hc => ?_⟩
  obtain ⟨s, h3, -, -, h4, -⟩ := h2 _ c 0 (by unfold Names IsName; decide +kernel) hc
  exact ⟨s, h3, h4 (by decide +kernel)⟩

/-- Two layers, the stronger one never saved. -/
def exFromLayer (l : Val) (names : List (List String × List String)) : Comp.LayerNodes :=
  names.map (fun e => exOpenSpec e.1 "" e.2 [(A_EXECUTE_IN, .none), (A_START, .none), (A_SOURCE_LAYER, l)])

def exFrom : List (Option Str × Comp.LayerNodes) :=
  [(none, exFromLayer .none [([], ["B"]), (["B"], [])]),
   (some "w".toList, exFromLayer (.str "w".toList) [([], ["B", "C"]), (["B"], []), (["C"], [])])]

/-- The layers of `/B` and `/C`, told by a number. -/
example : ((Build.compose (fun a b => a == b) Proxies.kidPaths none 20 (exFrom.map Prod.snd)).map fun r =>
    ["/", "/B", "/C"].map fun p => (get? p.toList r.2).bind fun c =>
      AttrSource.sourceLayer [(none, 1), (some "w".toList, 2)] r.1 c) = some [some 1, some 1, some 2] := by decide +kernel

def exFromNames : List (List Str) := [[], [['B']], [['C']]]

theorem exFrom_names : ∀ ns ∈ exFromNames, Names ns := by
  unfold Names IsName; decide +kernel

theorem exFrom_at {l : Comp.LayerNodes} (hl : l ∈ exFrom.map Prod.snd) {p : Str} (h : p ∈ keys l) : ∃ ns ∈ exFromNames, p = render ns := by
  have : ∀ l ∈ exFrom.map Prod.snd, ∀ p ∈ keys l, p ∈ exFromNames.map render := by decide +kernel
  obtain ⟨ns, hm, e⟩ := List.mem_map.1 (this l hl p h)
  exact ⟨ns, hm, e.symm⟩

def exFromOrder (weak : Bool) (p : Str) : List Str :=
  if p = ['/'] then (if weak then ["B".toList, "C".toList] else ["B".toList]) else []

theorem exFrom_good (weak : Bool) :
    GoodNodes (if weak then exFromLayer (.str "w".toList) [([], ["B", "C"]), (["B"], []), (["C"], [])]
      else exFromLayer .none [([], ["B"]), (["B"], [])]) (exFromOrder weak) where
  ok := by
    unfold Dict.Ok
    cases weak <;> decide +kernel
  path := by
    intro p hp
    obtain ⟨ns, h, e⟩ := exFrom_at (p := p) (by cases weak <;> simp [exFrom]) hp
    exact ⟨ns, exFrom_names ns h, e⟩
  node := by
    intro p n hn
    have := mem_of_get? hn
    cases weak <;>
    simp only [exFromLayer, exOpenSpec, List.map_cons, List.map_nil, List.mem_cons, List.not_mem_nil, or_false, Prod.mk.injEq, if_true,
      Bool.false_eq_true, if_false] at this
    · rcases this with ⟨rfl, rfl⟩ | ⟨rfl, rfl⟩ <;>
      exact ⟨by unfold Dict.Ok; decide +kernel, by rfl, by rfl⟩
    · rcases this with ⟨rfl, rfl⟩ | ⟨rfl, rfl⟩ | ⟨rfl, rfl⟩ <;>
      exact ⟨by unfold Dict.Ok; decide +kernel, by rfl, by rfl⟩
  listed := by
    cases weak <;> decide +kernel

theorem exFrom_each {P : Dict Str Val → Prop} (h : ∀ l ∈ exFrom.map Prod.snd, ∀ e ∈ l, P e.2) {l : Comp.LayerNodes}
    (hl : l ∈ exFrom.map Prod.snd) {p : Str} {n : Dict Str Val} (hm : (p, n) ∈ l) : P n := h l hl _ hm

theorem exFrom_tidy : Tidy (exFrom.map Prod.snd) where
  spec := {
    ok := by
      intro l hl
      simp only [exFrom, List.map_cons, List.map_nil, List.mem_cons, List.not_mem_nil, or_false] at hl
      rcases hl with rfl | rfl
      · exact (exFrom_good false).ok
      · exact (exFrom_good true).ok
    path := by
      intro l hl p n hm
      obtain ⟨ns, h, e⟩ := exFrom_at hl (mem_keys.2 ⟨n, hm⟩)
      exact ⟨ns, exFrom_names ns h, e⟩
    parent := by
      intro l hl ns n hN hm
      simp only [exFrom, List.map_cons, List.map_nil, List.mem_cons, List.not_mem_nil, or_false] at hl
      rcases hl with rfl | rfl <;>
      simp only [exFromLayer, exOpenSpec, List.map_cons, List.map_nil, List.mem_cons, List.not_mem_nil, or_false, Prod.mk.injEq] at hm
      · rcases hm with ⟨e, rfl⟩ | ⟨e, rfl⟩ <;>
        rw [Path.render_inj hN (by unfold Names IsName; decide +kernel) e] <;> rfl
      · rcases hm with ⟨e, rfl⟩ | ⟨e, rfl⟩ | ⟨e, rfl⟩ <;>
        rw [Path.render_inj hN (by unfold Names IsName; decide +kernel) e] <;> rfl
    keys := fun l hl p n hm => exFrom_each
      (P := fun n => ∀ a ∈ ["_instance", "_enabled", "_comment", "_code"].map String.toList, (get? a n).isSome)
      (by decide +kernel) hl hm }
  good := by
    intro l hl
    simp only [exFrom, List.map_cons, List.map_nil, List.mem_cons, List.not_mem_nil, or_false] at hl
    rcases hl with rfl | rfl
    · exact ⟨_, exFrom_good false⟩
    · exact ⟨_, exFrom_good true⟩
  attrs := fun l hl p n hm => exFrom_each (P := fun n => (get? "_execute_in".toList n).isSome ∧ (get? "_start_point".toList n).isSome)
    (by decide +kernel) hl hm
  closed := by
    intro l hl ns x hN h0 hx
    obtain ⟨ms, hm, e⟩ := exFrom_at hl hx
    have := Path.render_inj hN (exFrom_names ms hm) e
    have key : ∀ ms ∈ exFromNames, ms.dropLast = [] := by decide +kernel
    have := key ms hm
    rw [← ‹ns ++ [x] = ms›, List.dropLast_concat] at this
    exact absurd this h0
  world := by decide +kernel
  enabled := by
    intro l hl p n hm e
    have := exFrom_each (P := fun n => (match getAttr n "_enabled".toList with | .none => true | _ => false) = true)
      (by decide +kernel) hl hm
    simp only [e] at this
    cases this

theorem exFrom_plain {ns : List Str} {i : Option Str} (hN : Names ns) (h : instPathOf (exFrom.map Prod.snd) ns = some i) :
    i = none := by
  have hne : stack (exFrom.map Prod.snd) (render ns) ≠ [] := fun he => by rw [Building.instPathOf_none.2 he] at h; cases h
  obtain ⟨m, t, hmt⟩ := List.exists_cons_of_ne_nil hne
  obtain ⟨l, hl, hm⟩ := mem_stack (n := m) (p := render ns) (layers := exFrom.map Prod.snd) (by rw [hmt]; simp)
  obtain ⟨ns', h3, h1⟩ := exFrom_at hl (mem_keys.2 ⟨_, hm⟩)
  have := render_inj hN (exFrom_names ns' h3) h1
  subst this
  have e1 : ∀ ns ∈ exFromNames, instPathOf (exFrom.map Prod.snd) ns = some none := by decide +kernel
  rw [e1 ns h3] at h
  exact (Option.some.inj h).symm

theorem exFrom_separate : Separate (instPathOf (exFrom.map Prod.snd)) where
  apart := by
    rintro p r q s ⟨hp, i, h, -⟩ -
    cases exFrom_plain hp h
  means := by
    intro p i hp h
    cases exFrom_plain hp h
  own := by
    rintro p r t i ⟨hp, j, h, -⟩
    cases exFrom_plain hp h

/-- The example meets the hypotheses of `C152_layer`. -/
example : ∃ n, ∀ fuel ≥ n, ∃ g nodes, Build.compose (fun a b => a == b) Proxies.kidPaths none fuel (exFrom.map Prod.snd) = some (g, nodes) ∧
    ∀ c, get? (render ["B".toList]) nodes = some c →
      AttrSource.sourceLayer exFrom g c = some (exFromLayer .none [([], ["B"]), (["B"], [])]) := by
  obtain ⟨n, h⟩ := C152_layer exFrom exFrom_tidy
    (by
      intro l hl ns n hN h0 hm
      obtain ⟨ms, h1, e⟩ := exFrom_at hl (mem_keys.2 ⟨n, hm⟩)
      have := exFrom_each (P := fun n => getAttr n A_NAME = .str ['/'] ∨ listed n = []) (by
        intro l hl e he
        simp only [exFrom, List.map_cons, List.map_nil, List.mem_cons, List.not_mem_nil, or_false] at hl
        rcases hl with rfl | rfl <;>
        simp only [exFromLayer, exOpenSpec, List.map_cons, List.map_nil, List.mem_cons, List.not_mem_nil, or_false] at he
        · rcases he with rfl | rfl
          · exact .inl rfl
          · exact .inr (by decide +kernel)
        · rcases he with rfl | rfl | rfl
          · exact .inl rfl
          · exact .inr (by decide +kernel)
          · exact .inr (by decide +kernel)) hl hm
      rcases this with h | h
      · obtain ⟨od, hg⟩ := exFrom_tidy.good l hl
        have h2 := (hg.node _ _ (get?_of_mem hg.ok hm)).2.1
        rw [h] at h2
        rw [Behind.name_text hN] at h2
        rcases Path.eq_nil_or_snoc ns with rfl | ⟨ms, x, rfl⟩
        · exact absurd rfl h0
        · unfold nameText at h2
          rw [List.getLast?_concat] at h2
          have hx : IsName x := hN x (by simp)
          cases h2
          exact absurd (by decide +kernel) hx.2.1
      · rw [h]; intro x hx; cases hx)
    (fun l hl p n hm => by
      obtain ⟨od, hg⟩ := exFrom_tidy.good l hl
      have : (get? A_NAME n).isSome = true := exFrom_each (P := fun n => (get? A_NAME n).isSome = true) (by decide +kernel) hl hm
      have h2 := (hg.node _ _ (get?_of_mem hg.ok hm)).2.1
      obtain ⟨v, hv⟩ := Option.isSome_iff_exists.1 this
      unfold getAttr at h2
      rw [hv] at h2
      exact ⟨_, by rw [show "_name".toList = A_NAME from rfl, hv]; exact congrArg some h2⟩)
    exFrom_separate
    (by
      intro l hl p n hm
      simp only [exFrom, List.mem_cons, List.not_mem_nil, or_false] at hl
      rcases hl with rfl | rfl <;>
      simp only [exFromLayer, exOpenSpec, List.map_cons, List.map_nil, List.mem_cons, List.not_mem_nil, or_false, Prod.mk.injEq] at hm
      · rcases hm with ⟨-, rfl⟩ | ⟨-, rfl⟩ <;> rfl
      · rcases hm with ⟨-, rfl⟩ | ⟨-, rfl⟩ | ⟨-, rfl⟩ <;> rfl)
    (by decide +kernel) (fun a b => a == b) C79_scan none
  refine ⟨n, fun fuel hf => ?_⟩
  obtain ⟨g, nodes, h1, h2⟩ := h fuel hf
  refine ⟨g, nodes, h1, fun c hc => ?_⟩
  exact (h2 _ c (none, exFromLayer .none [([], ["B"]), (["B"], [])]) (by unfold Names IsName; decide +kernel) hc (by rfl)).1

/-! ### Where it fails -/

/-- `/a/b` is only implied. -/
def exBehindImplied : Comp.LayerNodes :=
  [exOpenSpec [] "" ["a"] [], exOpenSpec ["a"] "" [] [], exOpenSpec ["a", "b", "c"] "" [] []]

/-- `/a/b` is to be an instance of its own parent. -/
def exBehindOwn : Comp.LayerNodes :=
  [exOpenSpec [] "" ["a"] [], exOpenSpec ["a"] "" ["b"] [], exOpenSpec ["a", "b"] "/a" [] []]

/-- C152, where it fails: the node above an implied parent is filed as the instance source of a node without an instance
path. -/
theorem C152_implied_violation : exBehind exBehindImplied "/a/b/c" = some ⟨1, none, some "/a", none, some "c", none, none⟩ := by
  decide +kernel

/-- C152, where it fails: an instance path which composing refuses still gives an instance. -/
theorem C152_refused_violation :
    exBehind exBehindOwn "/a/b" = some ⟨1, some "/a", none, none, some "b", some "/a", some "/a"⟩ := by
  decide +kernel

end Nxt.Props
