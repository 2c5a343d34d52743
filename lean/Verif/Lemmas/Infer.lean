import Verif.Model.Infer
import Verif.Lemmas.Increment
import Verif.Lemmas.InheritBuild
/-!
# Lemmas about classes made one after the other and linked to their parents
-/
namespace Nxt.Infer
open Dict NodeData Mro Inherit Spec

/-- A new composite node with its specs. -/
theorem laid_addNodes {g : Classes} {nodes : Dict Str Nat} {specs links : Nat → List Nat} (h : Laid g nodes specs links)
    (p : Str) (own : Dict Str Val) (ts : List (Dict Str Val)) (ht : ts ≠ []) (hp : get? p nodes = none) :
    Laid (addNode g own ts) (Dict.set p g.size nodes)
      (fun d => if d = g.size then List.range' (g.size + 1) ts.length else specs d)
      (fun d => if d = g.size then [] else links d) := by
  have hset : Dict.set p g.size nodes = nodes ++ [(p, g.size)] := set_of_not_mem (get?_eq_none.1 hp)
  have old : ∀ d < g.size, (addNode g own ts).bases d = g.bases d := fun d hd => by simp [addNode, hd]
  have new : (addNode g own ts).bases g.size = List.range' (g.size + 1) ts.length := by simp [addNode]
  have newS : ∀ d, g.size < d → d < g.size + 1 + ts.length → (addNode g own ts).bases d = [0] := by
    intro d h1 h2
    simp only [addNode]
    rw [if_neg (by omega), if_neg (by omega), if_pos h2]
  have hrange : ∀ s, s ∈ List.range' (g.size + 1) ts.length → g.size < s ∧ s < g.size + 1 + ts.length := by
    intro s hs
    rw [List.mem_range'_1] at hs
    omega
  have hsize : (addNode g own ts).size = g.size + 1 + ts.length := rfl
  have hmem : ∀ q c, (q, c) ∈ Dict.set p g.size nodes ↔ (q, c) ∈ nodes ∨ (q = p ∧ c = g.size) := by
    intro q c; rw [hset]; simp
  have hlt : ∀ q c, (q, c) ∈ nodes → 0 < c ∧ c < g.size := fun q c hc => ⟨(h.comp q c hc).1, (h.comp q c hc).2.1⟩
  have hbelow : ∀ q c, (q, c) ∈ nodes → ∀ s ∈ specs c, s < g.size := fun q c hc s hs => (h.spec q c hc s hs).2.1
  have pos := h.pos
  refine ⟨ok_set h.ok _ _, ?_, ?_, ?_, ?_, ?_, ?_, ?_, ?_, ?_, ?_⟩
  · intro q r c hq hr
    rcases (hmem q c).1 hq with hq1 | ⟨hq1, hc⟩ <;> rcases (hmem r c).1 hr with hr1 | ⟨hr1, hc'⟩
    · exact h.inj q r c hq1 hr1
    · have := hlt q c hq1; omega
    · have := hlt r c hr1; omega
    · rw [hq1, hr1]
  · rw [old 0 pos]; exact h.root
  · rw [hsize]; omega
  · intro q c hq
    rcases (hmem q c).1 hq with hq | ⟨rfl, rfl⟩
    · have hl := hlt q c hq
      rw [if_neg (by omega), if_neg (by omega), old c hl.2]
      exact ⟨hl.1, by omega, (h.comp q c hq).2.2⟩
    · rw [if_pos rfl, if_pos rfl, new, List.append_nil]
      exact ⟨pos, by omega, rfl⟩
  · intro q c hq b hb
    rcases (hmem q c).1 hq with hq | ⟨rfl, rfl⟩
    · have hl := hlt q c hq
      rw [if_neg (by omega)] at hb
      obtain ⟨r, hr⟩ := h.link q c hq b hb
      exact ⟨r, (hmem r b).2 (.inl hr)⟩
    · rw [if_pos rfl] at hb; exact nomatch hb
  · intro q c hq s hs
    rcases (hmem q c).1 hq with hq | ⟨rfl, rfl⟩
    · have hl := hlt q c hq
      rw [if_neg (by omega)] at hs
      obtain ⟨h1, h2, h3, h4⟩ := h.spec q c hq s hs
      refine ⟨h1, by omega, by rw [old s h2, h3], fun r hr => ?_⟩
      rcases (hmem r s).1 hr with hr | ⟨_, rfl⟩
      · exact h4 r hr
      · omega
    · rw [if_pos rfl] at hs
      have hs' := hrange s hs
      refine ⟨by omega, by omega, newS s hs'.1 hs'.2, fun r hr => ?_⟩
      rcases (hmem r _).1 hr with hr | ⟨_, hr⟩
      · have := hlt r _ hr; omega
      · omega
  · intro q c hq
    rcases (hmem q c).1 hq with hq | ⟨rfl, rfl⟩
    · have hl := hlt q c hq
      rw [if_neg (by omega)]; exact h.nonempty q c hq
    · rw [if_pos rfl]
      intro he
      rw [List.range'_eq_nil_iff] at he
      exact ht (List.length_eq_zero_iff.1 he)
  · intro q c hq
    rcases (hmem q c).1 hq with hq | ⟨rfl, rfl⟩
    · have hl := hlt q c hq
      rw [if_neg (by omega)]; exact h.nodup q c hq
    · rw [if_pos rfl]; exact List.nodup_range'
  · intro q c r d hq hr s hsc hsd
    rcases (hmem q c).1 hq with hq | ⟨_, rfl⟩ <;> rcases (hmem r d).1 hr with hr | ⟨_, rfl⟩
    · have h1 := hlt q c hq
      have h2 := hlt r d hr
      rw [if_neg (by omega)] at hsc hsd
      exact h.disjoint q c r d hq hr s hsc hsd
    · have h1 := hlt q c hq
      rw [if_neg (by omega)] at hsc
      rw [if_pos rfl] at hsd
      have := hrange s hsd
      have := hbelow q c hq s hsc; omega
    · have h1 := hlt r d hr
      rw [if_neg (by omega)] at hsd
      rw [if_pos rfl] at hsc
      have := hrange s hsc
      have := hbelow r d hr s hsd; omega
    · rfl
  · intro s h1 h2 h3
    rw [hsize] at h1
    by_cases hd : s < g.size
    · rw [old s hd]
      exact h.others s hd h2 fun q hq => h3 q ((hmem q s).2 (Or.inl hq))
    · by_cases he : s = g.size
      · exact absurd ((hmem p s).2 (Or.inr ⟨rfl, he⟩)) (h3 p)
      · exact newS s (by omega) h1

/-- The own tables after adding a node. -/
theorem tables_addNodes (g : Classes) (own : Dict Str Val) (ts : List (Dict Str Val)) :
    (List.range' (g.size + 1) ts.length).map (addNode g own ts).own = ts := by
  apply List.ext_getElem?
  intro i
  rw [List.getElem?_map]
  by_cases hi : i < ts.length
  · rw [List.getElem?_range' hi]
    simp only [Option.map_some, addNode, Nat.one_mul]
    rw [if_neg (by omega), if_neg (by omega), show g.size + 1 + i - (g.size + 1) = i by omega, List.getElem?_eq_getElem hi]
    rfl
  · rw [List.getElem?_eq_none (by simpa using hi), List.getElem?_eq_none (by simpa using hi)]
    rfl

/-- Links are missing or lead to the nearest node above. -/
def Upward (nodes : Dict Str Nat) (links : Nat → List Nat) : Prop :=
  ∀ ns c, Names ns → (render ns, c) ∈ nodes → links c = [] ∨ links c = (nearestAbove nodes ns).toList

/-- A node without a link takes the nearest node above as a base. -/
theorem link_up {g : Classes} {nodes : Dict Str Nat} {specs links : Nat → List Nat} (h : Laid g nodes specs links)
    (hu : Upward nodes links) (hp : ∀ p c, (p, c) ∈ nodes → ∃ ns, Names ns ∧ p = render ns) {ns : List Str} {c b : Nat}
    (hN : Names ns) (hc : (render ns, c) ∈ nodes) (hl : links c = []) (hb : nearestAbove nodes ns = some b) :
    g.safeAddBase c b = some (withBases g c (specs c ++ [b])) ∧
      Laid (withBases g c (specs c ++ [b])) nodes specs (fun d => if d = c then [b] else links d) := by
  obtain ⟨q, hq, hqn, hqb, -⟩ := nearestAbove_mem hN hb
  have hW := Laid.withBases h hc (new := [b]) (fun b' hb' => by rw [List.mem_singleton.1 hb']; exact ⟨_, hqb⟩)
  refine ⟨?_, hW⟩
  have hbc : g.bases c = specs c := by rw [(h.comp _ c hc).2.2, hl, List.append_nil]
  have hset : g.setBases c (specs c ++ [b]) = some (withBases g c (specs c ++ [b])) := by
    refine setBases_eq.2 ⟨rfl, ?_⟩
    refine Laid.all_lin hW fun p' d hd => ?_
    obtain ⟨ms, hM, rfl⟩ := hp p' d hd
    have hW' : ∀ ns d, Names ns → (render ns, d) ∈ nodes → (if d = c then [b] else links d) = [] ∨
        (if d = c then [b] else links d) = (nearestAbove nodes ns).toList := by
      intro ms d hM hd
      by_cases hdc : d = c
      · rw [if_pos hdc]
        subst hdc
        rw [Path.render_inj hM hN (h.inj _ _ _ hd hc), hb]
        exact .inr rfl
      · rw [if_neg hdc]; exact hu ms d hM hd
    obtain ⟨l, hl, -⟩ := Laid.lin_parents hW hW' (ms.length + 1) ms d (by omega) hM hd
    exact ⟨l, hl⟩
  obtain ⟨lb, hlb, hmem⟩ := Laid.lin_parents h hu (q.length + 1) q b (by omega) hq hqb
  have hblt := (h.comp _ b hqb).2.1
  have hweak : g.weakBases c b = g.bases c := by
    refine Increment.weakBases_all fun d hd e he hde => ?_
    rw [hbc] at hd
    have helt := Laid.closed h b hblt e he
    cases hme : g.mro e with
    | none => rw [hme] at hde; exact nomatch hde
    | some le =>
      rw [hme, Option.getD_some] at hde
      obtain ⟨lb', m, h3, h4, h5⟩ := hlb.base he
      obtain rfl := h3.det ((Laid.mro_iff h helt).1 hme)
      have hdlb : d ∈ lb := by rw [h4]; exact List.mem_cons_of_mem _ (h5.subset hde)
      have hcl : c ∈ lb := Laid.owner h hc hd hlb hblt (fun hbd => by
        subst hbd
        exact (h.spec _ c hc _ hd).2.2.2 _ hqb) hdlb
      have := hmem ns c hN hc hcl
      omega
  unfold Classes.safeAddBase
  rw [if_neg, if_pos hweak]
  · unfold Classes.addBase
    rw [hbc, hset]
  · rw [hbc]
    intro hbs
    exact (h.spec _ c hc b hbs).2.2.2 _ hqb

theorem specsAt_eq (layers : List Comp.LayerNodes) (p : Str) : specsAt layers p = stack layers p := by
  have : ∀ acc, layers.foldl (fun specs l => match get? p l with | some n => specs ++ [n] | none => specs) acc =
      acc ++ stack layers p := by
    induction layers with
    | nil => intro acc; simp [stack]
    | cons l ls ih =>
      intro acc
      rw [List.foldl_cons]
      unfold stack
      rw [List.filterMap_cons]
      cases get? p l with
      | none => exact ih acc
      | some n =>
        simp only
        rw [ih (acc ++ [n])]
        unfold stack
        simp
  exact (this []).trans (List.nil_append _)

/-! ### The loop over the ancestors -/

/-- The temporary composite layer when the ancestors shorter than `j` are done. -/
structure Half (layers : List Comp.LayerNodes) (ns : List Str) (j : Nat) (st : St) (specs links : Nat → List Nat) : Prop where
  laid : Laid st.g st.nodes specs links
  first : get? (render ns) st.nodes = some 1
  free : links 1 = []
  paths : ∀ p c, (p, c) ∈ st.nodes → p = render ns ∨ ∃ k < j, p = render (ns.take k)
  there : ∀ k < j, get? (render (ns.take k)) st.nodes = none ↔ stack layers (render (ns.take k)) = []
  link : ∀ k < j, ∀ c, (render (ns.take k), c) ∈ st.nodes → links c = (nearestAbove st.nodes (ns.take k)).toList
  parent : st.parent = nearestAbove st.nodes (ns.take j)
  tables : ∀ p c, (p, c) ∈ st.nodes → (specs c).map st.g.own =
    if stack layers p = [] then [dummy p] else stack layers p
  own : ∀ p c, (p, c) ∈ st.nodes → ∀ k, k ≠ A_INSTANCE → get? k (st.g.own c) = none
  node : st.g.own 0 = NODE_CLASS

theorem take_render_ne {ns : List Str} (hN : Names ns) {j k : Nat} (hjk : j < k) (hk : k ≤ ns.length) :
    render (ns.take j) ≠ render (ns.take k) := by
  intro he
  have := congrArg List.length (Path.render_inj (Path.names_take hN j) (Path.names_take hN k) he)
  simp only [List.length_take] at this
  omega

theorem nearestAbove_take (nodes : Dict Str Nat) {ns : List Str} {j : Nat} (hj : j < ns.length) :
    nearestAbove nodes (ns.take (j + 1)) = (lineage (ns.take j)).findSome? (fun q => get? (render q) nodes) := by
  rw [List.take_succ_eq_append_getElem hj, nearestAbove_snoc]

theorem lineage_findSome (f : List Str → Option Nat) {ns : List Str} {j : Nat} (hj : j ≤ ns.length) :
    (lineage (ns.take j)).findSome? f = (f (ns.take j)).or
      (match j with | 0 => none | j + 1 => (lineage (ns.take j)).findSome? f) := by
  cases j with
  | zero => rw [List.take_zero, lineage_nil, List.findSome?_cons]; cases f [] <;> rfl
  | succ j =>
    rw [List.take_succ_eq_append_getElem (by omega), lineage_snoc, List.findSome?_cons]
    cases f (ns.take j ++ [ns[j]]) <;> rfl

theorem ancestorInst_silent {specs : List (Dict Str Val)} (h : ∀ n ∈ specs, (getAttr n A_INSTANCE).hasOpinion = false)
    (hne : specs ≠ []) : (ancestorInst specs).hasOpinion = false := by
  unfold ancestorInst
  have key : ∀ (l : List (Dict Str Val)) v, (∀ n ∈ l, (getAttr n A_INSTANCE).hasOpinion = false) →
      l.foldl (fun cur n => if (getAttr n A_INSTANCE).hasOpinion then getAttr n A_INSTANCE else cur) v = v := by
    intro l
    induction l with
    | nil => intro v _; rfl
    | cons n l ih =>
      intro v hl
      rw [List.foldl_cons, hl n List.mem_cons_self]
      exact ih v fun m hm => hl m (List.mem_cons_of_mem _ hm)
  rw [key _ _ fun n hn => h n (List.mem_reverse.1 hn)]
  cases specs with
  | nil => exact absurd rfl hne
  | cons n l => exact h n List.mem_cons_self

theorem half_step {layers : List Comp.LayerNodes} {ns : List Str} (hN : Names ns) {j : Nat} (hj : j < ns.length) {st : St}
    {specs links : Nat → List Nat} (h : Half layers ns j st specs links)
    (hno : ∀ n ∈ stack layers (render (ns.take j)), (getAttr n A_INSTANCE).hasOpinion = false) :
    ∃ st' specs' links', ancestor layers st (render (ns.take j)) = some (some st') ∧ Half layers ns (j + 1) st' specs' links' := by
  have hT : ∀ k, Names (ns.take k) := Path.names_take hN
  have hfull : ns.take ns.length = ns := List.take_length
  have hfree : get? (render (ns.take j)) st.nodes = none := by
    cases hg : get? (render (ns.take j)) st.nodes with
    | none => rfl
    | some c =>
      exfalso
      rcases h.paths _ c (mem_of_get? hg) with he | ⟨k, hk, he⟩
      · rw [← hfull] at he
        rw [List.take_take, Nat.min_eq_left (Nat.le_of_lt hj)] at he
        exact take_render_ne hN hj (Nat.le_refl _) he
      · exact take_render_ne hN hk (Nat.le_of_lt hj) he.symm
  have hpath : ∀ p c, (p, c) ∈ st.nodes → ∃ ms, Names ms ∧ p = render ms := by
    intro p c hc
    rcases h.paths p c hc with rfl | ⟨k, _, rfl⟩
    · exact ⟨ns, hN, rfl⟩
    · exact ⟨_, hT k, rfl⟩
  unfold ancestor
  simp only [specsAt_eq]
  by_cases he : stack layers (render (ns.take j)) = []
  · refine ⟨st, specs, links, by rw [if_pos he], h.laid, h.first, h.free, ?_, ?_, ?_, ?_, h.tables, h.own, h.node⟩
    · intro p c hc
      rcases h.paths p c hc with h1 | ⟨k, hk, h1⟩
      · exact .inl h1
      · exact .inr ⟨k, by omega, h1⟩
    · intro k hk
      by_cases hkj : k = j
      · subst hkj; rw [hfree, he]; simp
      · exact h.there k (by omega)
    · intro k hk c hc
      by_cases hkj : k = j
      · subst hkj
        rw [get?_of_mem h.laid.ok hc] at hfree
        exact nomatch hfree
      · exact h.link k (by omega) c hc
    · rw [h.parent, nearestAbove_take _ hj, lineage_findSome _ (Nat.le_of_lt hj), hfree, Option.none_or]
      cases j with
      | zero => rfl
      | succ j => rw [nearestAbove_take _ (by omega)]
  · rw [if_neg he, hfree]
    simp only [ancestorInst_silent hno he, Bool.false_eq_true, if_false]
    generalize hinst : ancestorInst (stack layers (render (ns.take j))) = inst
    generalize hts : stack layers (render (ns.take j)) = ts at he
    have hA := laid_addNodes h.laid (render (ns.take j)) [(A_INSTANCE, inst)] ts he hfree
    generalize hspecs' : (fun d => if d = st.g.size then List.range' (st.g.size + 1) ts.length else specs d) = specs' at hA
    have hmem : ∀ q c, (q, c) ∈ Dict.set (render (ns.take j)) st.g.size st.nodes ↔
        (q, c) ∈ st.nodes ∨ (q = render (ns.take j) ∧ c = st.g.size) := by
      intro q c; rw [set_of_not_mem (get?_eq_none.1 hfree)]; simp
    have hlt : ∀ q c, (q, c) ∈ st.nodes → c < st.g.size := fun q c hc => (h.laid.comp q c hc).2.1
    have hnew : (render (ns.take j), st.g.size) ∈ Dict.set (render (ns.take j)) st.g.size st.nodes := (hmem _ _).2 (.inr ⟨rfl, rfl⟩)
    have hab : ∀ k ≤ j, nearestAbove (Dict.set (render (ns.take j)) st.g.size st.nodes) (ns.take k) =
        nearestAbove st.nodes (ns.take k) := by
      intro k hk
      refine Increment.nearestAbove_set _ (hT j) (hT k) ?_
      rintro ⟨m, t, hh⟩
      have := congrArg List.length hh
      simp only [List.length_take, List.length_append, List.length_cons] at this
      omega
    have hpath' : ∀ p c, (p, c) ∈ Dict.set (render (ns.take j)) st.g.size st.nodes → ∃ ms, Names ms ∧ p = render ms := by
      intro p c hc
      rcases (hmem p c).1 hc with hc | ⟨rfl, _⟩
      · exact hpath p c hc
      · exact ⟨_, hT j, rfl⟩
    have hone : 1 < st.g.size := hlt _ 1 (mem_of_get? h.first)
    have hUp : Upward (Dict.set (render (ns.take j)) st.g.size st.nodes) (fun d => if d = st.g.size then [] else links d) := by
      intro ms c hM hc
      rcases (hmem _ c).1 hc with hc | ⟨_, rfl⟩
      · have := hlt _ c hc
        simp only
        rw [if_neg (by omega)]
        rcases h.paths _ c hc with h1 | ⟨k, hk, h1⟩
        · rw [h1] at hc
          have := get?_of_mem h.laid.ok hc
          rw [h.first] at this
          cases this
          exact .inl h.free
        · obtain rfl := Path.render_inj hM (hT k) h1
          rw [hab k (by omega)]
          exact .inr (h.link k hk c hc)
      · simp
    -- the parent becomes a base
    obtain ⟨g2, h2, hL2, hown2, hsize2⟩ : ∃ g2, addParent (addNode st.g [(A_INSTANCE, inst)] ts) st.g.size st.parent = some g2 ∧
        Laid g2 (Dict.set (render (ns.take j)) st.g.size st.nodes) specs'
          (fun d => if d = st.g.size then (nearestAbove st.nodes (ns.take j)).toList else links d) ∧
        g2.own = (addNode st.g [(A_INSTANCE, inst)] ts).own ∧ g2.size = st.g.size + 1 + ts.length := by
      rw [h.parent]
      cases hb : nearestAbove st.nodes (ns.take j) with
      | none => exact ⟨_, rfl, hA, rfl, rfl⟩
      | some b =>
        obtain ⟨h1, h2⟩ := link_up hA hUp hpath' (hT j) hnew (by simp) ((hab j (Nat.le_refl _)).trans hb)
        refine ⟨_, h1, ?_, rfl, rfl⟩
        have : (fun d => if d = st.g.size then [b] else if d = st.g.size then [] else links d) =
            (fun d => if d = st.g.size then (some b).toList else links d) := by
          funext d; split <;> simp_all
        rw [this] at h2
        exact h2
    rw [h2]
    refine ⟨_, specs', _, rfl, hL2, ?_, ?_, ?_, ?_, ?_, ?_, ?_, ?_, ?_⟩
    · simp only
      rw [get?_set, if_neg]
      · exact h.first
      · rw [← hfull, List.take_take, Nat.min_eq_left (Nat.le_of_lt hj)]
        exact fun e => take_render_ne hN hj (Nat.le_refl _) e.symm
    · rw [if_neg (by omega)]; exact h.free
    · intro p c hc
      rcases (hmem p c).1 hc with hc | ⟨rfl, _⟩
      · rcases h.paths p c hc with h1 | ⟨k, hk, h1⟩
        · exact .inl h1
        · exact .inr ⟨k, by omega, h1⟩
      · exact .inr ⟨j, by omega, rfl⟩
    · intro k hk
      simp only
      rw [get?_set]
      by_cases hkj : k = j
      · subst hkj; rw [if_pos rfl, hts]; simp [he]
      · rw [if_neg (take_render_ne hN (by omega) (Nat.le_of_lt hj))]
        exact h.there k (by omega)
    · intro k hk c hc
      simp only
      rw [hab k (by omega)]
      rcases (hmem _ c).1 hc with hc' | ⟨h1, h3⟩
      · have := hlt _ c hc'
        rw [if_neg (by omega)]
        by_cases hkj : k = j
        · subst hkj
          rw [get?_of_mem h.laid.ok hc'] at hfree
          exact nomatch hfree
        · exact h.link k (by omega) c hc'
      · rw [if_pos h3]
        by_cases hkj : k = j
        · rw [hkj]
        · exact absurd h1 (take_render_ne hN (by omega) (Nat.le_of_lt hj))
    · simp only
      rw [nearestAbove_take _ hj, lineage_findSome _ (Nat.le_of_lt hj), get?_set, if_pos rfl]
      rfl
    · intro p c hc
      simp only
      rw [hown2]
      rcases (hmem p c).1 hc with hc | ⟨rfl, rfl⟩
      · have hcl := hlt p c hc
        rw [← h.tables p c hc, ← hspecs']
        simp only
        rw [if_neg (by omega)]
        refine List.map_congr_left fun s hs => ?_
        have := (h.laid.spec p c hc s hs).2.1
        simp [addNode, this]
      · rw [← hspecs', hts, if_neg he]
        simp only [if_true]
        exact tables_addNodes _ _ _
    · intro p c hc k hk
      simp only
      rw [hown2]
      rcases (hmem p c).1 hc with hc | ⟨rfl, rfl⟩
      · have hcl := hlt p c hc
        have : (addNode st.g [(A_INSTANCE, inst)] ts).own c = st.g.own c := by simp [addNode, hcl]
        rw [this]
        exact h.own p c hc k hk
      · have : (addNode st.g [(A_INSTANCE, inst)] ts).own st.g.size = [(A_INSTANCE, inst)] := by simp [addNode]
        rw [this]
        simp only [get?]
        rw [if_neg (fun e => hk e.symm)]
    · simp only
      rw [hown2]
      have := h.laid.pos
      have : (addNode st.g [(A_INSTANCE, inst)] ts).own 0 = st.g.own 0 := by simp [addNode, this]
      rw [this]; exact h.node

end Nxt.Infer
