import Verif.Lemmas.InheritInst
import Verif.Props.Dirty
import Verif.Props.Lists
/-!
# Properties C70–: what composite nodes inherit
-/
namespace Nxt.Props
open Dict NodeData Mro Inherit Spec

/-! ## C70 -/

/-- The nodes above: the value of an attribute follows the lineage. -/
theorem attr_lineage {g : Classes} {nodes : Dict Str Nat} {specs links : Nat → List Nat}
    (h : Laid g nodes specs links)
    (hl : ∀ ns c, Names ns → (render ns, c) ∈ nodes → links c = (nearestAbove nodes ns).toList) (k : Str) (N : Nat) :
    ∀ ns c, ns.length < N → Names ns → (render ns, c) ∈ nodes →
      ∃ l, Lin g c l ∧ l.findSome? (fun d => get? k (g.own d)) =
        (inherited (fun p => (get? p nodes).map (tablesOf g specs)) ns k).or (get? k (g.own 0)) := by
  -- where there is no node, the lineage passes on
  have skip : ∀ ns, Names ns → get? (render ns) nodes = none →
      inherited (fun p => (get? p nodes).map (tablesOf g specs)) ns k =
        match nearestAbove nodes ns with
        | none => none
        | some _ => inherited (fun p => (get? p nodes).map (tablesOf g specs)) ns.dropLast k := by
    intro ns hN hg
    rcases Path.eq_nil_or_snoc ns with rfl | ⟨ms, n, rfl⟩
    · simp [inherited, lineage_nil, hg, nearestAbove]
    · rw [List.dropLast_concat, nearestAbove_snoc]
      unfold inherited
      rw [lineage_snoc, List.findSome?_cons]
      simp only [hg, Option.map_none, Option.bind_none]
      cases hf : (lineage ms).findSome? (fun q => get? (render q) nodes) with
      | some b => rfl
      | none =>
        rw [List.findSome?_eq_none_iff] at hf ⊢
        intro q hq
        rw [hf q hq]; rfl
  have climbTo : ∀ ms b, Names ms → (lineage ms).findSome? (fun q => get? (render q) nodes) = some b →
      ∃ q, Names q ∧ q.length ≤ ms.length ∧ (render q, b) ∈ nodes ∧
        inherited (fun p => (get? p nodes).map (tablesOf g specs)) ms k =
          inherited (fun p => (get? p nodes).map (tablesOf g specs)) q k := by
    intro ms b
    refine Legacy.snocInduct (P := fun ms => Names ms →
      (lineage ms).findSome? (fun q => get? (render q) nodes) = some b →
      ∃ q, Names q ∧ q.length ≤ ms.length ∧ (render q, b) ∈ nodes ∧
        inherited (fun p => (get? p nodes).map (tablesOf g specs)) ms k =
          inherited (fun p => (get? p nodes).map (tablesOf g specs)) q k) ?_ ?_ ms
    · intro hN hf
      exact ⟨[], hN, Nat.le_refl _, mem_of_get? (by simpa [lineage_nil] using hf), rfl⟩
    · intro ms n ih hN hf
      rw [lineage_snoc, List.findSome?_cons] at hf
      cases hg : get? (render (ms ++ [n])) nodes with
      | some b' =>
        rw [hg] at hf
        cases hf
        exact ⟨_, hN, Nat.le_refl _, mem_of_get? hg, rfl⟩
      | none =>
        rw [hg] at hf
        obtain ⟨q, h1, h2, h3, h4⟩ := ih (Path.names_append.1 hN).1 hf
        refine ⟨q, h1, by simp; omega, h3, ?_⟩
        rw [skip _ hN hg, nearestAbove_snoc, List.dropLast_concat]
        simp only at hf
        rw [hf]
        exact h4
  induction N with
  | zero => intro ns c hlt; omega
  | succ N ih =>
    intro ns c hlt hN hc
    have hget : get? (render ns) nodes = some c := get?_of_mem h.ok hc
    have hfirst : ∀ m : List Nat, (c :: (specs c ++ m)).findSome? (fun d => get? k (g.own d)) =
        (firstTable k (tablesOf g specs c)).or (m.findSome? (fun d => get? k (g.own d))) := by
      intro m
      unfold firstTable tablesOf
      rw [List.findSome?_cons, List.findSome?_append, List.findSome?_cons, List.findSome?_map]
      cases get? k (g.own c) <;> simp [Function.comp_def]
    cases hn : nearestAbove nodes ns with
    | none =>
      refine ⟨_, Laid.lin_none h hc (by rw [hl ns c hN hc, hn]; rfl), ?_⟩
      rw [hfirst]
      have : inherited (fun p => (get? p nodes).map (tablesOf g specs)) ns k =
          firstTable k (tablesOf g specs c) := by
        rcases Path.eq_nil_or_snoc ns with rfl | ⟨ms, n, rfl⟩
        · simp [inherited, lineage_nil, hget]
        · rw [nearestAbove_snoc, List.findSome?_eq_none_iff] at hn
          unfold inherited
          rw [lineage_snoc, List.findSome?_cons]
          have : (lineage ms).findSome? (fun q => ((get? (render q) nodes).map (tablesOf g specs)).bind (firstTable k)) = none := by
            rw [List.findSome?_eq_none_iff]
            intro q hq
            rw [hn q hq]; rfl
          simp only [this, hget, Option.map_some, Option.bind_some]
          cases firstTable k (tablesOf g specs c) <;> rfl
      rw [this]
      simp
    | some b =>
      rcases Path.eq_nil_or_snoc ns with rfl | ⟨ms, n, rfl⟩
      · simp [nearestAbove] at hn
      · have hN' := (Path.names_append.1 hN).1
        rw [nearestAbove_snoc] at hn
        obtain ⟨q, h1, h2, h3, h4⟩ := climbTo ms b hN' hn
        simp only [List.length_append, List.length_singleton] at hlt
        obtain ⟨lb, hlb, hval⟩ := ih q b (by omega) h1 h3
        have hcb : c ∉ lb := by
          obtain ⟨lb', hlb', hmem⟩ := Laid.lin_parents h (fun ns c hN hc => Or.inr (hl ns c hN hc))
            (q.length + 1) q b (by omega) h1 h3
          rw [hlb.det hlb']
          intro hcb
          have := hmem _ c hN hc hcb
          simp only [List.length_append, List.length_singleton] at this
          omega
        refine ⟨_, Laid.lin_one h hc (by rw [hl _ c hN hc, nearestAbove_snoc, hn]; rfl) hlb hcb, ?_⟩
        rw [hfirst, hval]
        have : inherited (fun p => (get? p nodes).map (tablesOf g specs)) (ms ++ [n]) k =
            (firstTable k (tablesOf g specs c)).or
              (inherited (fun p => (get? p nodes).map (tablesOf g specs)) ms k) := by
          unfold inherited
          rw [lineage_snoc, List.findSome?_cons]
          simp only [hget, Option.map_some, Option.bind_some]
          cases firstTable k (tablesOf g specs c) <;> rfl
        rw [this, h4, Option.or_assoc]

/-- C70: composing the parents never fails, in whatever order the nodes are taken.  Afterwards the value
of any attribute of any node is that of the first node in its lineage (itself, its parent, and so on; paths
without a node are passed over) which has it, and within a node of its own table and then its strongest
layer which has it; only then that of the class `Node`. -/
theorem C70_parents {g : Classes} {nodes : Dict Str Nat} {specs : Nat → List Nat}
    (h : Laid g nodes specs (fun _ => [])) (hp : ∀ p c, (p, c) ∈ nodes → ∃ ns, Names ns ∧ p = render ns)
    (hpar : ∀ ns c, Names ns → (render ns, c) ∈ nodes →
      firstTable A_PARENT (tablesOf g specs c) = some (.str (parentText ns)))
    (order : List (Str × Nat)) (ho : order.Perm nodes) :
    ∃ g', order.foldlM (parentArc nodes) g = some g' ∧ g'.own = g.own ∧
      ∀ ns c k, Names ns → (render ns, c) ∈ nodes →
        g'.attr? c k = (inherited (fun p => (get? p nodes).map (tablesOf g specs)) ns k).or (get? k (g.own 0)) := by
  obtain ⟨g', h1, h2, h3, links, h4, h5⟩ := parents_fold (g0 := g) hp hpar order [] g
    (fun x hx => ho.mem_iff.1 hx)
    (by
      rw [List.nil_append]
      exact ho.nodup_iff.2 ((List.pairwise_map.1 h.ok).imp fun hne he => hne (congrArg Prod.fst he)))
    ⟨rfl, rfl, _, h, fun ns c _ _ => by simp⟩
  refine ⟨g', h1, h2, fun ns c k hN hc => ?_⟩
  have hlinks : ∀ ns c, Names ns → (render ns, c) ∈ nodes → links c = (nearestAbove nodes ns).toList := by
    intro ns c hN hc
    rw [h5 ns c hN hc, if_pos (by simpa using ho.mem_iff.2 hc)]
  obtain ⟨l, hl, hv⟩ := attr_lineage h4 hlinks k (ns.length + 1) ns c (by omega) hN hc
  unfold Classes.attr?
  rw [(Laid.mro_iff h4 (h4.comp _ c hc).2.1).2 hl, Option.bind_some, hv]
  have : tablesOf g' specs = tablesOf g specs := by funext d; unfold tablesOf; rw [h2]
  rw [this, h2]

/-! ## C71 -/

section
variable {g g' : Classes} {nodes : Dict Str Nat} {specs : Nat → List Nat}

/-- C71: when composing succeeds, what a node takes from is in its resolution order, with its whole order
in the same sequence: whatever the nearest node above or the instance source offers, the node has. -/
theorem C71_orders_kept (h : Laid g nodes specs (fun _ => []))
    (hp : ∀ p c, (p, c) ∈ nodes → ∃ ns, Names ns ∧ p = render ns)
    (hpar : ∀ ns c, Names ns → (render ns, c) ∈ nodes →
      firstTable A_PARENT (tablesOf g specs c) = some (.str (parentText ns)))
    (hins : ∀ p c, (p, c) ∈ nodes → (firstTable A_INSTANCE (tablesOf g specs c)).isSome)
    {order : List (Str × Nat)} (ho : order.Perm nodes) (hs : postProxy nodes order g = some g') {c b : Nat}
    (ht : TakesFrom g nodes specs c b) :
    ∃ m lb, g'.mro c = some (c :: m) ∧ g'.mro b = some lb ∧ List.Sublist lb m ∧ c ∉ lb ∧
      ∀ k, (g'.attr? b k).isSome → (g'.attr? c k).isSome := by
  obtain ⟨links, hL, hO, _, hI⟩ := postProxy_done h hp hpar hins ho hs
  have key : ∀ p, (p, c) ∈ nodes → ∀ q, (q, b) ∈ nodes →
      (b ∈ links c ∨ ∃ b' lb', b' ∈ links c ∧ Lin g' b' lb' ∧ b ∈ lb') →
      ∃ m lb, g'.mro c = some (c :: m) ∧ g'.mro b = some lb ∧ List.Sublist lb m ∧ c ∉ lb ∧
        ∀ k, (g'.attr? b k).isSome → (g'.attr? c k).isSome := by
    intro p hc q hb hcase
    obtain ⟨l, hl⟩ := hO p c hc
    obtain ⟨lb, hlb⟩ := hO q b hb
    have hmc := (hL.comp p c hc).2.2
    have : ∃ m, l = c :: m ∧ List.Sublist lb m := by
      rcases hcase with hbl | ⟨b', lb', hbl, hlb', hbm⟩
      · obtain ⟨lb1, m, h1, rfl, h2⟩ := hl.base (b := b) (by rw [hmc]; simp [hbl])
        rw [hlb.det h1]; exact ⟨m, rfl, h2⟩
      · obtain ⟨lb1, m, h1, rfl, h2⟩ := hl.base (b := b') (by rw [hmc]; simp [hbl])
        obtain ⟨lb2, h3, h4⟩ := hlb'.mem hbm
        rw [hlb.det h3]
        rw [← hlb'.det h1] at h2
        exact ⟨m, rfl, h4.trans h2⟩
    obtain ⟨m, rfl, hsub⟩ := this
    have e1 := (Laid.mro_iff hL (hL.comp p c hc).2.1).2 hl
    have e2 := (Laid.mro_iff hL (hL.comp q b hb).2.1).2 hlb
    refine ⟨m, lb, e1, e2, hsub, fun hcl => (List.nodup_cons.1 hl.nodup).1 (hsub.subset hcl), fun k hk => ?_⟩
    unfold Classes.attr? at hk ⊢
    rw [e2, Option.bind_some, List.findSome?_isSome_iff] at hk
    rw [e1, Option.bind_some, List.findSome?_isSome_iff]
    obtain ⟨x, hx, hx'⟩ := hk
    exact ⟨x, List.mem_cons_of_mem _ (hsub.subset hx), hx'⟩
  cases ht with
  | @parent ns _ _ hN hc hnear =>
    obtain ⟨q, hq, _, hqb, _⟩ := nearestAbove_mem hN hnear
    refine key _ hc _ hqb ?_
    have := hI ns c hN hc
    unfold InstLinks at this
    split at this
    · rw [this, hnear]; exact Or.inl (by simp)
    · rename_i b' _
      rcases this with ⟨h1, h2⟩ | ⟨_, _, lb, hlb, h2 | ⟨p, h1, h3, h4⟩⟩
      · rw [hnear] at h1; cases h1; exact Or.inl (by rw [h2]; simp)
      · exact Or.inl (by rw [h2, hnear]; simp)
      · rw [hnear] at h1; cases h1
        exact Or.inr ⟨b', lb, by rw [h4]; simp, hlb, h3⟩
  | @«instance» p _ _ hc hi =>
    obtain ⟨q, hq⟩ := instSource_mem hi
    obtain ⟨ns, hN, rfl⟩ := hp p c hc
    refine key _ hc _ hq (Or.inl ?_)
    have := hI ns c hN hc
    rw [hi] at this
    rcases this with ⟨h1, h2⟩ | ⟨_, _, lb, hlb, h2 | ⟨p, h1, h3, h4⟩⟩
    · rw [h2]; simp
    · rw [h2]; simp
    · rw [h4]; simp

theorem untouched {k : Str} (hk : Untouched k) : ¬ Touched k := by
  rintro ⟨a, ha, he⟩
  have := hk a ha
  rcases he with he | he
  · exact this.1 he
  · exact this.2 he

/-- C72: what a node's own layers say about an attribute always holds, whatever it inherits; among its
layers the strongest which has the attribute decides.  (The three attributes the instance arc itself
composes and their sources are the subject of C75.) -/
theorem C72_local_first (h : Laid g nodes specs (fun _ => []))
    (hp : ∀ p c, (p, c) ∈ nodes → ∃ ns, Names ns ∧ p = render ns)
    (hpar : ∀ ns c, Names ns → (render ns, c) ∈ nodes →
      firstTable A_PARENT (tablesOf g specs c) = some (.str (parentText ns)))
    (hins : ∀ p c, (p, c) ∈ nodes → (firstTable A_INSTANCE (tablesOf g specs c)).isSome)
    {order : List (Str × Nat)} (ho : order.Perm nodes) (hs : postProxy nodes order g = some g') {p : Str} {c : Nat}
    (hc : (p, c) ∈ nodes) {k : Str} {v : Val} (hv : firstTable k (tablesOf g specs c) = some v)
    (hk : Untouched k) : g'.attr? c k = some v := by
  obtain ⟨links, hL, hO, hown, _⟩ := postProxy_done h hp hpar hins ho hs
  obtain ⟨l, hl⟩ := hO p c hc
  have hk' := untouched hk
  refine Laid.local_first hL hc hl ?_
  rw [firstTable_congr (fun d => hown d k hk'), hv]

theorem findSome?_sublist {α β : Type} (f : α → Option β) {l m : List α} (hs : List.Sublist l m) :
    m.Nodup → (∀ x ∈ m, x ∉ l → f x = none) → m.findSome? f = l.findSome? f := by
  induction hs with
  | slnil => intro _ _; rfl
  | @cons l m x hs ih =>
    intro hn hf
    have hx := (List.nodup_cons.1 hn).1
    rw [List.findSome?_cons, hf x List.mem_cons_self (fun h => hx (hs.subset h))]
    exact ih (List.nodup_cons.1 hn).2 fun y hy hyl => hf y (List.mem_cons_of_mem _ hy) hyl
  | @cons_cons l m x hs ih =>
    intro hn hf
    have hx := (List.nodup_cons.1 hn).1
    rw [List.findSome?_cons, List.findSome?_cons, ih (List.nodup_cons.1 hn).2 fun y hy hyl =>
      hf y (List.mem_cons_of_mem _ hy) fun h => by
        rcases List.mem_cons.1 h with rfl | h
        · exact hx hy
        · exact hyl h]

/-- C73: which inherited value a node has, for an attribute its own tables do not have.
Without an instance source it is that of the nearest node above.
With an instance source which itself has the nearest node above in its order (as for siblings, or for
nodes directly below the world), or without a node above, it is that of the instance source.
Otherwise what the node above says in its own tables is stronger than the instance source, and the
instance source decides where the node above has nothing at all. -/
theorem C73_precedence (h : Laid g nodes specs (fun _ => []))
    (hp : ∀ p c, (p, c) ∈ nodes → ∃ ns, Names ns ∧ p = render ns)
    (hpar : ∀ ns c, Names ns → (render ns, c) ∈ nodes →
      firstTable A_PARENT (tablesOf g specs c) = some (.str (parentText ns)))
    (hins : ∀ p c, (p, c) ∈ nodes → (firstTable A_INSTANCE (tablesOf g specs c)).isSome)
    {order : List (Str × Nat)} (ho : order.Perm nodes) (hs : postProxy nodes order g = some g')
    {ns : List Str} {c : Nat} (hN : Names ns) (hc : (render ns, c) ∈ nodes) {k : Str} (hk : Untouched k)
    (hloc : firstTable k (tablesOf g specs c) = none) :
    (instSource g nodes specs c = none → g'.attr? c k =
      match nearestAbove nodes ns with
      | none => get? k (g'.own 0)
      | some p => g'.attr? p k) ∧
    ∀ b, instSource g nodes specs c = some b →
      ((∀ p, nearestAbove nodes ns = some p → p ∈ (g'.mro b).getD []) → g'.attr? c k = g'.attr? b k) ∧
      (∀ p, nearestAbove nodes ns = some p → p ∉ (g'.mro b).getD [] →
        (∀ v, firstTable k (tablesOf g specs p) = some v → g'.attr? c k = some v) ∧
        (g'.attr? p k = none → g'.attr? c k = g'.attr? b k)) := by
  obtain ⟨links, hL, hO, hown, hI⟩ := postProxy_done h hp hpar hins ho hs
  obtain ⟨l, hl⟩ := hO _ c hc
  have hk' := untouched hk
  have hloc' : ∀ x, firstTable k (tablesOf g' specs x) = firstTable k (tablesOf g specs x) := fun x =>
    firstTable_congr (fun d => hown d k hk') x
  have hmro : ∀ q x lx, (q, x) ∈ nodes → Lin g' x lx → g'.mro x = some lx := fun q x lx hx hlx =>
    (Laid.mro_iff hL (hL.comp q x hx).2.1).2 hlx
  have hattr : ∀ q x lx, (q, x) ∈ nodes → Lin g' x lx → g'.attr? x k = lx.findSome? (fun d => get? k (g'.own d)) := by
    intro q x lx hx hlx
    unfold Classes.attr?
    rw [hmro q x lx hx hlx, Option.bind_some]
  -- one link
  have hone : ∀ b, links c = [b] → g'.attr? c k = g'.attr? b k := by
    intro b hb
    obtain ⟨q, hq⟩ := hL.link _ c hc b (by rw [hb]; simp)
    obtain ⟨lb, hlb⟩ := hO q b hq
    have hcb := Lin.base_above hl (b := b) (by rw [(hL.comp _ c hc).2.2, hb]; simp) hlb
    rw [attr?_of_lin hL hc (Laid.lin_one hL hc hb hlb hcb), hloc', hloc, hattr q b lb hq hlb]; rfl
  have hIc := hI ns c hN hc
  refine ⟨fun hnone => ?_, fun b hb => ?_⟩
  · rw [hnone] at hIc
    have hIc : links c = (nearestAbove nodes ns).toList := hIc
    cases hnear : nearestAbove nodes ns with
    | none =>
      rw [hnear] at hIc
      rw [attr?_of_lin hL hc (Laid.lin_none hL hc hIc), hloc', hloc]
      simp
    | some p =>
      rw [hnear] at hIc
      exact hone p hIc
  · rw [hb] at hIc
    obtain ⟨q, hq⟩ := instSource_mem hb
    obtain ⟨lb, hlb⟩ := hO q b hq
    rw [hmro q b lb hq hlb, Option.getD_some]
    refine ⟨fun hall => ?_, fun p hnear hpb => ?_⟩
    · rcases hIc with ⟨_, h2⟩ | ⟨_, _, lb', hlb', h2 | ⟨p, h1, h3, h4⟩⟩
      · exact hone b h2
      · cases hnear : nearestAbove nodes ns with
        | none => rw [hnear] at h2; exact hone b h2
        | some p =>
          rw [hnear] at h2
          obtain ⟨r, hr, _, hrp, _⟩ := nearestAbove_mem hN hnear
          obtain ⟨lp, hlp⟩ := hO _ p hrp
          exact absurd (hall p hnear) (Laid.lin_two hL hc hrp hq h2 hl hlp hlb).1
      · exact hone b h4
    · obtain ⟨r, hr, _, hrp, _⟩ := nearestAbove_mem hN hnear
      obtain ⟨lp, hlp⟩ := hO _ p hrp
      have h2 : links c = [p, b] := by
        rcases hIc with ⟨h1, _⟩ | ⟨_, _, lb', hlb', h2 | ⟨p', h1, h3, h4⟩⟩
        · rw [hnear] at h1; cases h1; exact absurd hlb.self hpb
        · rw [hnear] at h2; exact h2
        · rw [hnear] at h1; cases h1
          rw [hlb.det hlb'] at hpb
          exact absurd h3 hpb
      obtain ⟨_, mp, m, rfl, rfl, h3, h4, h5⟩ := Laid.lin_two hL hc hrp hq h2 hl hlp hlb
      have hpm : ∀ rest : List Nat, (p :: (specs p ++ rest)).findSome? (fun d => get? k (g'.own d)) =
          (firstTable k (tablesOf g specs p)).or (rest.findSome? (fun d => get? k (g'.own d))) := by
        intro rest
        rw [← hloc']
        unfold firstTable tablesOf
        rw [List.findSome?_cons, List.findSome?_append, List.findSome?_cons, List.findSome?_map]
        cases get? k (g'.own p) <;> simp [Function.comp_def]
      rw [attr?_of_lin hL hc hl, hloc', hloc, Option.none_or, hpm]
      refine ⟨fun v hv => by rw [hv]; rfl, fun hnone => ?_⟩
      rw [hattr _ p _ hrp hlp, hpm, Option.or_eq_none_iff] at hnone
      rw [hnone.1, Option.none_or, hattr q b lb hq hlb]
      have hn : m.Nodup := (List.nodup_append.1 (List.nodup_cons.1 (List.nodup_append.1
        (List.nodup_cons.1 hl.nodup).2).2.1).2).2.1
      refine findSome?_sublist _ h4 hn fun x hx hxb => ?_
      rcases h5 x hx with hx | hx
      · exact (List.findSome?_eq_none_iff.1 hnone.2) x hx
      · exact absurd hx hxb

/-- C74: composing succeeds only if no node takes from itself, directly or through others: any cycle of
parents and instance sources makes the whole composition fail. -/
theorem C74_cycle_fails (h : Laid g nodes specs (fun _ => []))
    (hp : ∀ p c, (p, c) ∈ nodes → ∃ ns, Names ns ∧ p = render ns)
    (hpar : ∀ ns c, Names ns → (render ns, c) ∈ nodes →
      firstTable A_PARENT (tablesOf g specs c) = some (.str (parentText ns)))
    (hins : ∀ p c, (p, c) ∈ nodes → (firstTable A_INSTANCE (tablesOf g specs c)).isSome)
    {order : List (Str × Nat)} (ho : order.Perm nodes) {c : Nat} (hd : Draws g nodes specs c c) :
    postProxy nodes order g = none := by
  cases hs : postProxy nodes order g with
  | none => rfl
  | some g' =>
    exfalso
    have key : ∀ a b, Draws g nodes specs a b → ∃ m lb, g'.mro a = some (a :: m) ∧ g'.mro b = some lb ∧
        List.Sublist lb m := by
      intro a b hab
      induction hab with
      | one ht =>
        obtain ⟨m, lb, h1, h2, h3, _⟩ := C71_orders_kept h hp hpar hins ho hs ht
        exact ⟨m, lb, h1, h2, h3⟩
      | more ht _ ih =>
        obtain ⟨m, lb, h1, h2, h3, _⟩ := C71_orders_kept h hp hpar hins ho hs ht
        obtain ⟨m', lb', h4, h5, h6⟩ := ih
        rw [h2] at h4
        cases h4
        exact ⟨m, lb', h1, h5, h6.trans ((List.sublist_cons_self _ _).trans h3)⟩
    obtain ⟨m, lb, h1, h2, h3⟩ := key c c hd
    rw [h1] at h2
    cases h2
    have := h3.length_le
    simp only [List.length_cons] at this
    omega

/-! ## C75 -/

/-- Following a chain to its end gives the chain. -/
theorem instanceSources_chain {ps : List Str} {inst : Str → Option Str} {n : Str} {r : List Str}
    (hc : Chain inst n r) : ∀ trace fuel, (∀ x ∈ r, x ∈ ps) → (trace ++ r).Nodup →
      (∀ q, inst (r.getLast?.getD n) = some q → q ∉ ps) → r.length < fuel →
      Dirty.instanceSources ps inst fuel n trace = some (trace ++ r) := by
  induction hc with
  | nil n =>
    intro trace fuel _ _ hend hf
    cases fuel with
    | zero => omega
    | succ fuel =>
      simp only [Dirty.instanceSources]
      split
      · simp
      · rename_i p hp
        rw [if_neg fun h => hend p hp h.1]
        simp
  | @cons n p t hn _ ih =>
    intro trace fuel hm hnd hend hf
    cases fuel with
    | zero => omega
    | succ fuel =>
      simp only [Dirty.instanceSources]
      rw [hn]
      simp only
      have hp : p ∉ trace := fun h => (List.nodup_append.1 hnd).2.2 p h p List.mem_cons_self rfl
      rw [if_pos ⟨hm p List.mem_cons_self, hp⟩, ih (trace ++ [p]) fuel (fun x hx => hm x (List.mem_cons_of_mem _ hx))
        (by simpa using hnd) ?_ (by simp only [List.length_cons] at hf; omega)]
      · simp
      · intro q hq
        apply hend
        cases t with
        | nil => exact hq
        | cons a t =>
          rw [List.getLast?_cons_cons]
          have e : ∀ x y : Str, (a :: t).getLast?.getD x = (a :: t).getLast?.getD y := by
            intro x y
            rw [List.getLast?_eq_some_getLast (by simp)]; rfl
          rw [e n p]; exact hq

/-- Without cycles the trace of a node is its source followed by the trace of its source. -/
theorem trace_cons {ps : List Str} {inst : Str → Option Str} (hacyc : ∀ n r, Chain inst n r → n ∉ r) {n p : Str}
    (hn : inst n = some p) (hp : p ∈ ps) {f f' : Nat} (hf : ps.length + 1 ≤ f) (hf' : ps.length + 1 ≤ f') :
    ∃ r, Dirty.instanceSources ps inst f p [] = some r ∧ Dirty.instanceSources ps inst f' n [] = some (p :: r) := by
  obtain ⟨r, h1, h2, h3, h4, h5⟩ := C35_trace ps inst p f hf
  have happ : ∀ n r, Chain inst n r → ∀ q, inst (r.getLast?.getD n) = some q → Chain inst n (r ++ [q]) := by
    intro n r hc
    induction hc with
    | nil n => intro q hq; exact .cons hq (.nil q)
    | @cons n p t hnp _ ih =>
      intro q hq
      refine .cons hnp (ih q ?_)
      cases t with
      | nil => exact hq
      | cons a t =>
        rw [List.getLast?_cons_cons] at hq
        have e : ∀ x y : Str, (a :: t).getLast?.getD x = (a :: t).getLast?.getD y := by
          intro x y
          rw [List.getLast?_eq_some_getLast (by simp)]; rfl
        rw [e p n]; exact hq
  have hcut : ∀ n r, Chain inst n r → ∀ q ∈ r, ∃ r2, Chain inst q r2 ∧ (∀ z, inst (r.getLast?.getD n) = some z →
      inst (r2.getLast?.getD q) = some z) := by
    intro n r hc
    induction hc with
    | nil n => intro q hq; cases hq
    | @cons n p t hnp hc ih =>
      intro q hq
      have e : ∀ z, inst ((p :: t).getLast?.getD n) = some z → inst (t.getLast?.getD p) = some z := by
        intro z hz
        cases t with
        | nil => exact hz
        | cons a t =>
          rw [List.getLast?_cons_cons] at hz
          have e : ∀ x y : Str, (a :: t).getLast?.getD x = (a :: t).getLast?.getD y := by
            intro x y
            rw [List.getLast?_eq_some_getLast (by simp)]; rfl
          rw [e p n]; exact hz
      rcases List.mem_cons.1 hq with rfl | hq
      · exact ⟨t, hc, e⟩
      · obtain ⟨r2, h6, h7⟩ := ih q hq
        exact ⟨r2, h6, fun z hz => h7 z (e z hz)⟩
  have hend : ∀ q, inst (r.getLast?.getD p) = some q → q ∉ ps := by
    intro q hq
    rcases h5 q hq with h | h
    · exact h
    · obtain ⟨r2, h6, h7⟩ := hcut p r h4 q h
      have := hacyc q (r2 ++ [q]) (happ q r2 h6 q (h7 q hq))
      simp at this
  refine ⟨r, h1, ?_⟩
  have hpr : p ∉ r := hacyc p r h4
  have := instanceSources_chain (ps := ps) (Chain.cons hn h4) [] f' (by
    intro x hx
    rcases List.mem_cons.1 hx with rfl | hx
    · exact hp
    · exact h3 x hx) (by simpa using ⟨hpr, h2⟩) (by
    intro q hq
    apply hend q
    cases r with
    | nil => exact hq
    | cons a t =>
      rw [List.getLast?_cons_cons] at hq
      have e : ∀ x y : Str, (a :: t).getLast?.getD x = (a :: t).getLast?.getD y := by
        intro x y
        rw [List.getLast?_eq_some_getLast (by simp)]; rfl
      rw [e p n]; exact hq) (by
    have := Dirty.length_le_of_nodup (a := p :: r) (b := ps) (List.nodup_cons.2 ⟨hpr, h2⟩) (by
      intro x hx
      rcases List.mem_cons.1 hx with rfl | hx
      · exact hp
      · exact h3 x hx)
    omega)
  simpa using this

/-- Every node takes from the world, if there is one. -/
theorem draws_world {w : Nat} (hw : (render [], w) ∈ nodes) (hok : Dict.Ok nodes) (N : Nat) :
    ∀ ns c, ns.length < N → ns ≠ [] → Names ns → (render ns, c) ∈ nodes → Draws g nodes specs c w := by
  induction N with
  | zero => intro ns c h; omega
  | succ N ih =>
    intro ns c hlt hne hN hc
    cases hn : nearestAbove nodes ns with
    | none =>
      exfalso
      rcases Path.eq_nil_or_snoc ns with rfl | ⟨ms, n, rfl⟩
      · exact hne rfl
      · rw [nearestAbove_snoc, List.findSome?_eq_none_iff] at hn
        have hm : [] ∈ lineage ms := by
          refine Legacy.snocInduct (P := fun ms => [] ∈ lineage ms) (by simp [lineage_nil]) ?_ ms
          intro ms n h; rw [lineage_snoc]; exact List.mem_cons_of_mem _ h
        have := hn [] hm
        rw [get?_of_mem hok hw] at this
        cases this
    | some b =>
      obtain ⟨q, h1, h2, h3, _⟩ := nearestAbove_mem hN hn
      by_cases hq : q = []
      · subst hq
        have e : b = w := Option.some.inj ((get?_of_mem hok h3).symm.trans (get?_of_mem hok hw))
        subst e
        exact .one (.parent hN hc hn)
      · exact .more (.parent hN hc hn) (ih q b (by omega) hq h1 h3)

theorem Draws.trans {a b c : Nat} (h : Draws g nodes specs a b) (h' : Draws g nodes specs b c) :
    Draws g nodes specs a c := by
  induction h with
  | one ht => exact .more ht h'
  | more ht _ ih => exact .more ht (ih h')

/-- A text value. -/
def asText : Val → Option Str
  | .str s => some s
  | _ => none

/-- What `get_instance_sources` reads. -/
theorem instPath_eq (h : Laid g nodes specs (fun _ => [])) {p : Str} {c : Nat} (hc : (p, c) ∈ nodes) {v : Val}
    (hv : firstTable A_INSTANCE (tablesOf g specs c) = some v) :
    instPath nodes g p = asText v := by
  have : g.attr c A_INSTANCE = v := by
    unfold Classes.attr
    rw [attr?_of_lin h hc (Laid.lin_none h hc rfl), hv]; rfl
  unfold instPath
  rw [get?_of_mem h.ok hc]
  simp only [this]
  rfl

/-- When composing succeeds, instance sources come before their instances. -/
theorem trace_source (h : Laid g nodes specs (fun _ => []))
    (hp : ∀ p c, (p, c) ∈ nodes → ∃ ns, Names ns ∧ p = render ns)
    (hpar : ∀ ns c, Names ns → (render ns, c) ∈ nodes →
      firstTable A_PARENT (tablesOf g specs c) = some (.str (parentText ns)))
    (hins : ∀ p c, (p, c) ∈ nodes → (firstTable A_INSTANCE (tablesOf g specs c)).isSome)
    (hworld : ∀ c, (['/'], c) ∈ nodes → firstTable A_INSTANCE (tablesOf g specs c) ≠ some (.str ['/']))
    {order : List (Str × Nat)} (ho : order.Perm nodes) (hs : postProxy nodes order g = some g')
    {p q : Str} {c b : Nat} (hc : (p, c) ∈ nodes) (hi : instSource g nodes specs c = some b) (hb : (q, b) ∈ nodes) :
    (trace nodes g q).length < (trace nodes g p).length := by
  -- a step between nodes
  have step : ∀ x y cx cy, (x, cx) ∈ nodes → (y, cy) ∈ nodes → instPath nodes g x = some y →
      Draws g nodes specs cx cy := by
    intro x y cx cy hx hy hxy
    obtain ⟨v, hv⟩ := Option.isSome_iff_exists.1 (hins x cx hx)
    rw [instPath_eq h hx hv] at hxy
    cases v with
    | str s =>
      cases hxy
      by_cases hyw : y = ['/']
      · subst hyw
        obtain ⟨ns, hN, rfl⟩ := hp x cx hx
        by_cases hns : ns = []
        · subst hns
          exact absurd hv (hworld cx hx)
        · exact draws_world (w := cy) hy h.ok (ns.length + 1) ns cx (by omega) hns hN hx
      · refine .one (.instance hx ?_)
        unfold instSource
        rw [show "_instance".toList = A_INSTANCE from rfl, hv]
        simp only
        rw [if_neg hyw, get?_of_mem h.ok hy]
    | _ => cases hxy
  have hnode : ∀ x y, instPath nodes g x = some y → ∃ cx, (x, cx) ∈ nodes := by
    intro x y hxy
    unfold instPath at hxy
    cases hg : get? x nodes with
    | none => rw [hg] at hxy; cases hxy
    | some cx => exact ⟨cx, mem_of_get? hg⟩
  have chainDraws : ∀ x r, Chain (instPath nodes g) x r → ∀ y ∈ r, ∀ cx cy, (x, cx) ∈ nodes → (y, cy) ∈ nodes →
      Draws g nodes specs cx cy := by
    intro x r hcr
    induction hcr with
    | nil => intro y hy; cases hy
    | @cons x z t hxz hzt ih =>
      intro y hy cx cy hx hyn
      rcases List.mem_cons.1 hy with rfl | hy
      · exact step x y cx cy hx hyn hxz
      · have : ∃ cz, (z, cz) ∈ nodes := by
          cases hzt with
          | nil => cases hy
          | cons hzu _ => exact hnode _ _ hzu
        obtain ⟨cz, hz⟩ := this
        exact Draws.trans (step x z cx cz hx hz hxz) (ih y hy cz cy hz hyn)
  have hacyc : ∀ n r, Chain (instPath nodes g) n r → n ∉ r := by
    intro n r hcr hn
    have : ∃ cn, (n, cn) ∈ nodes := by
      cases hcr with
      | nil => cases hn
      | cons hnu _ => exact hnode _ _ hnu
    obtain ⟨cn, hcn⟩ := this
    have := C74_cycle_fails h hp hpar hins ho (chainDraws n r hcr n hn cn cn hcn hcn)
    rw [this] at hs; cases hs
  have hpq : instPath nodes g p = some q := by
    unfold instSource at hi
    rw [show "_instance".toList = A_INSTANCE from rfl] at hi
    split at hi
    · rename_i ip hv
      rw [instPath_eq h hc hv]
      split at hi
      · cases hi
      · rw [h.inj _ _ _ (mem_of_get? hi) hb]; rfl
    · cases hi
  have hlen : (keys nodes).length + 1 ≤ nodes.length + 1 := by simp [keys]
  obtain ⟨r, h1, h2⟩ := trace_cons hacyc hpq (mem_keys_of_mem hb) hlen hlen
  unfold trace
  rw [h1, h2]
  simp

/-- C75: when composing succeeds with the nodes in the order of `sort_instances`, the enabled state, the
comment and the code of every node are those of the first node with an opinion, going from the node to its
instance source and so on.  Missing: the recorded source of such a value, which the code gets wrong
(`C75_source_violation`). -/
theorem C75_composed_partial (h : Laid g nodes specs (fun _ => []))
    (hp : ∀ p c, (p, c) ∈ nodes → ∃ ns, Names ns ∧ p = render ns)
    (hpar : ∀ ns c, Names ns → (render ns, c) ∈ nodes →
      firstTable A_PARENT (tablesOf g specs c) = some (.str (parentText ns)))
    (hins : ∀ p c, (p, c) ∈ nodes → (firstTable A_INSTANCE (tablesOf g specs c)).isSome)
    (hworld : ∀ c, (['/'], c) ∈ nodes → firstTable A_INSTANCE (tablesOf g specs c) ≠ some (.str ['/']))
    {table : List (Str × Nat)} (ht : table.Perm nodes)
    (hs : postProxy nodes (sortInstances nodes table g) g = some g') {a : Str}
    (ha : a ∈ ["_enabled".toList, "_comment".toList, "_code".toList])
    (hsome : ∀ p c, (p, c) ∈ nodes → (firstTable a (tablesOf g specs c)).isSome)
    {p : Str} {c : Nat} (hc : (p, c) ∈ nodes) : Chosen g nodes specs a c (g'.attr c a) := by
  obtain ⟨hperm, hsort, _⟩ := C16_stable_sort (fun pc : Str × Nat => (trace nodes g pc.1).length) table
  change (sortInstances nodes table g).Perm table at hperm
  change (sortInstances nodes table g).Pairwise _ at hsort
  generalize sortInstances nodes table g = order at hs hperm hsort
  have ho := hperm.trans ht
  have hbefore := fun {p q : Str} {c b : Nat} => trace_source (p := p) (q := q) (c := c) (b := b)
    h hp hpar hins hworld ho hs
  have hs0 := hs
  obtain ⟨links', hL', hO', _, _⟩ := postProxy_done h hp hpar hins ho hs
  -- the values after the run
  have hval : ValuesDone g nodes specs a order g' := by
    have hnd : order.Nodup := ho.nodup_iff.2 ((List.pairwise_map.1 h.ok).imp fun hne he => hne (congrArg Prod.fst he))
    obtain ⟨g1, h1, h2, h3, links1, h4, h5⟩ := parents_fold (g0 := g) hp hpar order [] g
      (fun x hx => ho.mem_iff.1 hx) (by simpa using hnd) ⟨rfl, rfl, _, h, fun ns c _ _ => by simp⟩
    have hlinks : ∀ ns c, Names ns → (render ns, c) ∈ nodes → links1 c = (nearestAbove nodes ns).toList := by
      intro ns c hN hc
      rw [h5 ns c hN hc, if_pos (by simpa using ho.mem_iff.2 hc)]
    have ht : tablesOf g1 specs = tablesOf g specs := by funext d; unfold tablesOf; rw [h2]
    have hi : ∀ c, instSource g1 nodes specs c = instSource g nodes specs c := by
      intro c; unfold instSource; rw [ht]
    unfold postProxy at hs
    rw [h1, Option.bind_some] at hs
    have hO : Orders g1 nodes := by
      intro p c hc
      obtain ⟨ns, hN, rfl⟩ := hp p c hc
      obtain ⟨l, hl, _⟩ := Laid.lin_parents h4 (fun ns c hN hc => Or.inr (hlinks ns c hN hc)) (ns.length + 1) ns c
        (by omega) hN hc
      exact ⟨l, hl⟩
    have := values_fold (g1 := g1) hp (by rw [ht]; exact hins) (a := a) ha order [] g1 g' links1
      (fun x hx => ho.mem_iff.1 hx) (by simpa using hnd)
      ⟨rfl, fun _ _ _ => rfl, h4, hO, fun _ x l1 l _ ha hb d hdm => by rw [← ha.det hb]; exact hdm,
        (fun _ _ _ _ h => nomatch h), fun ns c hN hc _ => hlinks ns c hN hc⟩
      (by
        intro p c hc
        obtain ⟨v, hv⟩ := Option.isSome_iff_exists.1 (hsome p c hc)
        exact ⟨v, v, by rw [ht, hv], by rw [ht, hv], by simp⟩)
      (fun _ h => nomatch h)
      (by
        intro pre x post he q b hib hq hxb
        rw [hi] at hib
        rw [List.nil_append]
        have hm : (q, b) ∈ order := ho.mem_iff.2 hq
        have hlt := hbefore (p := x.1) (c := x.2) (ho.mem_iff.1 (by rw [he]; simp)) hib hq
        rw [he] at hm hsort
        rcases List.mem_append.1 hm with hm | hm
        · exact hm
        · exfalso
          have hx := (List.pairwise_append.1 hsort).2.1
          rcases List.mem_cons.1 hm with rfl | hm
          · exact hxb rfl
          · have := (List.pairwise_cons.1 hx).1 _ hm
            simp only at this
            omega)
      hs
    intro p c hc
    obtain ⟨v0, v, e1, e2, e3⟩ := this p c hc
    rw [ht] at e1
    rw [hi] at e3
    exact ⟨v0, v, e1, e2, by simpa using e3⟩
  -- down the chain
  have key : ∀ N p c, (trace nodes g p).length < N → (p, c) ∈ nodes → Chosen g nodes specs a c (g'.attr c a) := by
    intro N
    induction N with
    | zero => intro p c h; omega
    | succ N ih =>
      intro p c hlt hc
      obtain ⟨v0, v, e1, e2, e3⟩ := hval p c hc
      rw [if_pos (ho.mem_iff.2 hc)] at e3
      rw [Laid.attr_local hL' hO' hc e2]
      cases hop : v0.hasOpinion with
      | true => rw [if_pos hop] at e3; subst e3; exact .here e1 hop
      | false =>
        rw [if_neg (by simp [hop])] at e3
        cases hi : instSource g nodes specs c with
        | none => rw [hi] at e3; subst e3; exact .last e1 hi
        | some b =>
          rw [hi] at e3
          simp only at e3
          subst e3
          obtain ⟨q, hq⟩ := instSource_mem hi
          exact .next e1 hop hi (ih q b (by have := hbefore hc hi hq; omega) hq)
  exact key _ p c (Nat.lt_succ_self _) hc

/-- There is at most one such value. -/
theorem Chosen.unique {a : Str} {c : Nat} {v w : Val} (h : Chosen g nodes specs a c v)
    (h' : Chosen g nodes specs a c w) : v = w := by
  induction h with
  | here h1 h2 =>
    cases h' with
    | here h3 _ => rw [h1] at h3; exact Option.some.inj h3
    | last h3 _ => rw [h1] at h3; exact Option.some.inj h3
    | next h3 h4 => rw [h1] at h3; cases h3; rw [h2] at h4; cases h4
  | last h1 h2 =>
    cases h' with
    | here h3 _ => rw [h1] at h3; exact Option.some.inj h3
    | last h3 _ => rw [h1] at h3; exact Option.some.inj h3
    | next _ _ h5 => rw [h2] at h5; cases h5
  | next h1 h2 h3 _ ih =>
    cases h' with
    | here h4 h5 => rw [h1] at h4; cases h4; rw [h2] at h5; cases h5
    | last _ h5 => rw [h3] at h5; cases h5
    | next _ _ h6 h7 => rw [h3] at h6; cases h6; exact ih h7

end

end Nxt.Props
