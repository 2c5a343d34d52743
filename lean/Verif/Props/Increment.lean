import Verif.Lemmas.Increment
import Verif.Props.Targeted
import Verif.Props.InheritLayers
/-!
# Property C111: nodes added to a composed stage
-/
namespace Nxt.Props
open Dict NodeData Mro Inherit Increment Spec

theorem opinion_internal {b : List Str} {k : Str} (hk : UserName b k) : k ∉ opinionAttrs :=
  fun h => hk.2.1 ((by decide +kernel : ∀ a ∈ opinionAttrs, a ∈ internalNames) k h)

theorem source_reserved {b : List Str} {k : Str} (hk : UserName b k) (a : Str) : k ≠ a ++ "_source__nxt".toList :=
  hk.2.2 "source".toList (by decide +kernel) a

/-! ### Values -/

/-- A state which stands for layers has the attributes of the user which the layers give. -/
theorem settled_value {layers : List Comp.LayerNodes} {S : St} {specs links : Nat → List Nat}
    (h : Settled layers S specs links) {ns : List Str} {c : Nat} (hN : Names ns) (hc : get? (render ns) S.nodes = some c)
    {b : List Str} {k : Str} (hk : UserName b k) : S.g.attr? c k = layered layers ns k := by
  obtain ⟨l, h1, h2⟩ := attr_lineage h.laid h.link k (ns.length + 1) ns c (by omega) hN (mem_of_get? hc)
  unfold Classes.attr?
  rw [(Laid.mro_iff h.laid (h.laid.comp _ c (mem_of_get? hc)).2.1).2 h1, Option.bind_some, h2, h.node b k hk, Option.or_none]
  unfold inherited layered
  congr 1
  funext q
  cases hg : get? (render q) S.nodes with
  | none =>
    simp only [hg, (h.free _).1 hg]
    rfl
  | some d =>
    have hd := mem_of_get? hg
    simp only [hg, Option.map_some, Option.bind_some]
    have ht := congrArg (List.map Prod.snd) (h.tables _ d hd)
    rw [List.map_map, List.map_map] at ht
    unfold tablesOf firstTable
    rw [List.findSome?_cons, h.own _ d hd b k hk]
    have e : (specs d).map S.g.own = stack layers (render q) := by
      rw [← stackFrom_stack layers (render q) 0]
      exact ht
    rw [e]

/-! ### A new composite node -/

theorem parentText_ne {ns : List Str} (h : ns ≠ []) : parentText ns ≠ [] := by
  unfold parentText render
  rw [if_neg h]
  split
  · simp
  · rw [Ne, Path.slashed_eq_nil]; assumption

theorem parentNode_eq (S : St) {ns : List Str} (hN : Names ns) : parentNode S (parentText ns) = nearestAbove S.nodes ns := by
  unfold parentNode
  rcases Path.eq_nil_or_snoc ns with rfl | ⟨m, n, rfl⟩
  · rfl
  · rw [if_neg (parentText_ne (by simp)), nearestAbove_snoc]
    have : parentText (m ++ [n]) = render m := by unfold parentText; simp
    rw [this]
    exact parentBasePath_spec S.nodes m (Path.names_append.1 hN).1

theorem listChild_spec (S : St) (par name : Str) :
    (listChild S par name).nodes = S.nodes ∧ (listChild S par name).layer = S.layer ∧
    (listChild S par name).addr = S.addr ∧ (listChild S par name).g.size = S.g.size ∧
    (listChild S par name).g.bases = S.g.bases ∧
    (∀ d, (∀ p, (p, d) ∉ S.nodes) → (listChild S par name).g.own d = S.g.own d) ∧
    ∀ d k, k ≠ "_child_order".toList → get? k ((listChild S par name).g.own d) = get? k (S.g.own d) := by
  unfold listChild
  cases hg : get? par S.nodes with
  | none => simp
  | some b =>
    simp only
    split
    · simp
    · refine ⟨rfl, rfl, rfl, rfl, rfl, fun d hd => ?_, fun d k hk => ?_⟩
      · simp only [setAttr]
        rw [if_neg (by rintro rfl; exact hd par (mem_of_get? hg))]
      · simp only [setAttr]
        split
        · rename_i e; subst e
          rw [get?_set, if_neg (show k ≠ A_CHILD_ORDER from hk)]
        · rfl

/-- What `update_inherited_attrs` changes. -/
theorem updateNode_spec (is : Str → Str → Bool) (S : St) (c : Nat) :
    (updateNode is S c).nodes = S.nodes ∧ (updateNode is S c).layer = S.layer ∧ (updateNode is S c).addr = S.addr ∧
    (updateNode is S c).g.size = S.g.size ∧ (updateNode is S c).g.bases = S.g.bases ∧
    (∀ d, d ≠ c → (updateNode is S c).g.own d = S.g.own d) ∧
    ∀ k, k ∉ opinionAttrs → get? k ((updateNode is S c).g.own c) = get? k (S.g.own c) := by
  refine ⟨rfl, rfl, rfl, rfl, rfl, fun d hd => ?_, fun k hk => ?_⟩
  · simp only [updateNode, setOwn]
    rw [if_neg hd]
  · simp only [updateNode, setOwn]
    rw [if_pos trivial]
    exact C97_others _ _ _ _ k (.inl hk)

/-- Adding a spec at a path without a composite node. -/
theorem add_free (is : Str → Str → Bool) {layers : List Comp.LayerNodes} {S : St} {specs links : Nat → List Nat}
    (h : Settled layers S specs links) {ns : List Str} (hN : Names ns) (hf : get? (render ns) S.nodes = none)
    (i : Nat) (t : Dict Str Val) :
    ∃ S', add is S i (parentText ns) (nameText ns) t = some S' ∧
      S'.nodes = Dict.set (render ns) S.g.size S.nodes ∧
      Laid S'.g S'.nodes (fun d => if d = S.g.size then [S.g.size + 1] else specs d)
        (fun d => if d = S.g.size then (nearestAbove S.nodes ns).toList else links d) ∧
      S'.g.size = S.g.size + 2 ∧ (∀ d < S.g.size, S'.g.bases d = S.g.bases d) ∧
      S'.layer = (fun d => if d = S.g.size + 1 then some i else S.layer d) ∧
      S'.addr = (fun d => if d = S.g.size ∨ d = S.g.size + 1 then (parentText ns, nameText ns) else S.addr d) ∧
      S'.g.own (S.g.size + 1) = t ∧
      (∀ d < S.g.size, (∀ p, (p, d) ∉ S.nodes) → S'.g.own d = S.g.own d) ∧
      (∀ d < S.g.size, ∀ k, k ≠ "_child_order".toList → get? k (S'.g.own d) = get? k (S.g.own d)) ∧
      (∀ k, k ≠ "_child_order".toList → k ∉ opinionAttrs → get? k (S'.g.own S.g.size) = none) ∧
      (∀ d < S.g.size, S'.g.own d = (newComp S i (parentText ns) (nameText ns) t).g.own d) ∧
      ∃ S2, S' = updateNode is S2 S.g.size ∧ ∀ k, k ≠ "_child_order".toList → get? k (S2.g.own S.g.size) = none := by
  have hL0 := laid_addNode h.laid (render ns) [] t hf
  generalize hS0 : (⟨addNode S.g [] [t], Dict.set (render ns) S.g.size S.nodes,
    fun d => if d = S.g.size + 1 then some i else S.layer d,
    fun d => if d = S.g.size ∨ d = S.g.size + 1 then (parentText ns, nameText ns) else S.addr d⟩ : St) = S0
  obtain ⟨c1, c2, c3, c4, c5, c6, c7⟩ := listChild_spec S0 (parentText ns) (nameText ns)
  generalize hS1 : listChild S0 (parentText ns) (nameText ns) = S1 at c1 c2 c3 c4 c5 c6 c7
  have hadd : add is S i (parentText ns) (nameText ns) t = finish is S1 S.g.size (parentText ns) := by
    unfold add
    simp only [join_text ns hN, hf]
    rw [← hS1, ← hS0]
    unfold newComp
    rw [join_text ns hN]
  have e0 : S0.g = addNode S.g [] [t] := by rw [← hS0]
  have n0 : S0.nodes = Dict.set (render ns) S.g.size S.nodes := by rw [← hS0]
  have hL1 : Laid S1.g S1.nodes (fun d => if d = S.g.size then [S.g.size + 1] else specs d)
      (fun d => if d = S.g.size then [] else links d) := by
    have := Laid.congr (g' := S1.g) hL0 (by rw [c4, e0]) (by rw [c5, e0])
    rw [c1, n0]; exact this
  have hs1 : S1.g.size = S.g.size + 2 := by rw [c4, e0]; rfl
  have hold : ∀ d < S.g.size, S1.g.bases d = S.g.bases d := fun d hd => by rw [c5, e0]; simp [addNode, hd]
  have hpn : parentNode S1 (parentText ns) = nearestAbove S.nodes ns := by
    rw [parentNode_eq S1 hN, c1, n0]
    exact nearestAbove_set _ hN hN (by
      rintro ⟨m, l, he⟩
      have := congrArg List.length he
      simp at this)
  have hmem : (render ns, S.g.size) ∈ S1.nodes := by
    rw [c1, n0]; exact mem_of_get? (by rw [get?_set, if_pos rfl])
  have hmem' : ∀ q d, (q, d) ∈ S1.nodes → (q, d) ∈ S.nodes ∨ (q = render ns ∧ d = S.g.size) := by
    intro q d hd
    rw [c1, n0, set_of_not_mem (get?_eq_none.1 hf)] at hd
    simpa using hd
  have hsub : ∀ q d, (q, d) ∈ S.nodes → (q, d) ∈ S1.nodes := by
    intro q d hd
    rw [c1, n0, set_of_not_mem (get?_eq_none.1 hf)]
    exact List.mem_append_left _ hd
  have hclosed := Laid.closed h.laid
  have hlinOld : ∀ q d, (q, d) ∈ S.nodes → ∃ l, Lin S.g d l := by
    intro q d hd
    obtain ⟨ms, hM, rfl⟩ := h.path q d hd
    obtain ⟨l, h1, -⟩ := attr_lineage h.laid h.link [] (ms.length + 1) ms d (by omega) hM hd
    exact ⟨l, h1⟩
  have hown1 : S1.g.own (S.g.size + 1) = t := by
    rw [c6 _ (fun p hp => by
      rw [n0, set_of_not_mem (get?_eq_none.1 hf)] at hp
      rcases List.mem_append.1 hp with hp | hp
      · have := (h.laid.comp _ _ hp).2.1; omega
      · have := (Prod.mk.inj (List.mem_singleton.1 hp)).2; omega), e0]
    simp only [addNode]
    rw [if_neg (by omega), if_neg (by omega)]
    simp
  have hownOld : ∀ d < S.g.size, S0.g.own d = S.g.own d := fun d hd => by rw [e0]; simp [addNode, hd]
  have hownNew : S0.g.own S.g.size = [] := by rw [e0]; simp [addNode]
  -- the parent becomes a base
  obtain ⟨g2, h2, hL2, hg2own, hg2size, hg2old⟩ : ∃ g2, addParent S1 S.g.size (parentText ns) = some { S1 with g := g2 } ∧
      Laid g2 S1.nodes (fun d => if d = S.g.size then [S.g.size + 1] else specs d)
        (fun d => if d = S.g.size then (nearestAbove S.nodes ns).toList else links d) ∧ g2.own = S1.g.own ∧
      g2.size = S1.g.size ∧ ∀ d < S.g.size, g2.bases d = S.g.bases d := by
    unfold addParent
    rw [hpn]
    cases hnb : nearestAbove S.nodes ns with
    | none => exact ⟨S1.g, rfl, hL1, rfl, rfl, hold⟩
    | some b =>
      obtain ⟨q, hq, hqn, hqb, -⟩ := nearestAbove_mem hN hnb
      have hblt := (h.laid.comp _ b hqb).2.1
      obtain ⟨lb, hlb⟩ := hlinOld _ b hqb
      have hbases : S1.g.bases S.g.size = [S.g.size + 1] := by rw [c5, e0]; simp [addNode]
      have hW := Laid.withBases hL1 hmem (new := [b]) (fun b' hb' => by
        rw [List.mem_singleton.1 hb']; exact ⟨_, hsub _ _ hqb⟩)
      simp only [if_true] at hW
      have hbs : ∀ d < S.g.size, (withBases S1.g S.g.size ([S.g.size + 1] ++ [b])).bases d = S.g.bases d := by
        intro d hd
        simp only [Inherit.withBases]
        rw [if_neg (by omega), hold d hd]
      have hlinks : (fun d => if d = S.g.size then [b] else if d = S.g.size then [] else links d) =
          (fun d => if d = S.g.size then (some b).toList else links d) := by
        funext d; split <;> simp_all
      rw [hlinks] at hW
      have hset : S1.g.setBases S.g.size ([S.g.size + 1] ++ [b]) = some (withBases S1.g S.g.size ([S.g.size + 1] ++ [b])) := by
        refine setBases_eq.2 ⟨rfl, ?_⟩
        refine Laid.all_lin hW fun p' d hd => ?_
        rcases hmem' p' d hd with hd | ⟨_, rfl⟩
        · obtain ⟨l, hl⟩ := hlinOld p' d hd
          exact ⟨l, Lin.extend hclosed hbs (h.laid.comp _ d hd).2.1 hl⟩
        · have hb' := Lin.extend hclosed hbs hblt hlb
          exact ⟨_, Laid.lin_one hW hmem (b := b) (by simp) hb' (fun hh => by
            have := Lin.below hclosed hlb hblt _ hh; omega)⟩
      refine ⟨_, ?_, hW, rfl, rfl, hbs⟩
      simp only
      have hweak : S1.g.weakBases S.g.size b = S1.g.bases S.g.size := by
        refine weakBases_all fun d hd e he hde => ?_
        rw [hbases, List.mem_singleton] at hd
        rw [hold b hblt] at he
        have helt := hclosed b hblt e he
        cases hme : S1.g.mro e with
        | none => rw [hme] at hde; exact nomatch hde
        | some le =>
          rw [hme, Option.getD_some] at hde
          obtain ⟨lb', m, h3, h4, h5⟩ := hlb.base he
          have := (Lin.extend hclosed hold helt h3).det ((Laid.mro_iff hL1 (by omega)).1 hme)
          subst this
          have := Lin.below hclosed h3 helt d hde
          omega
      unfold Classes.safeAddBase
      rw [if_neg (by rw [hbases, List.mem_singleton]; omega), if_pos hweak]
      unfold Classes.addBase
      rw [hbases, hset]
      rfl
  obtain ⟨u1, u2, u3, u4, u5, u6, u7⟩ := updateNode_spec is { S1 with g := g2 } S.g.size
  have hown2 : ∀ k, k ≠ "_child_order".toList → get? k (g2.own S.g.size) = none := by
    intro k hk
    rw [hg2own, c7 _ k hk, hownNew]; rfl
  refine ⟨updateNode is { S1 with g := g2 } S.g.size, ?_, ?_, ?_, ?_, ?_, ?_, ?_, ?_, ?_, ?_, ?_, ?_, _, rfl, hown2⟩
  · rw [hadd]; unfold finish; rw [h2]; rfl
  · rw [u1]; exact c1.trans n0
  · rw [u1]; exact Laid.congr hL2 u4 u5
  · rw [u4]; exact hg2size.trans hs1
  · intro d hd; rw [u5]; exact hg2old d hd
  · rw [u2]; show S1.layer = _; rw [c2, ← hS0]
  · rw [u3]; show S1.addr = _; rw [c3, ← hS0]
  · rw [u6 _ (by omega)]; show g2.own _ = _; rw [hg2own]; exact hown1
  · intro d hd hp
    rw [u6 d (by omega)]; show g2.own d = _
    rw [hg2own, c6 d (fun p hpd => by
      rw [n0, set_of_not_mem (get?_eq_none.1 hf)] at hpd
      rcases List.mem_append.1 hpd with hpd | hpd
      · exact hp p hpd
      · have := (Prod.mk.inj (List.mem_singleton.1 hpd)).2; omega), hownOld d hd]
  · intro d hd k hk
    rw [u6 d (by omega)]; show get? k (g2.own d) = _
    rw [hg2own, c7 d k hk, hownOld d hd]
  · intro k hk ho
    rw [u7 k ho]; exact hown2 k hk
  · intro d hd
    rw [u6 d (by omega)]; show g2.own d = _
    rw [hg2own, ← hS1, ← hS0]
    unfold newComp
    rw [join_text ns hN]

/-! ### One more spec -/

theorem laid_newSpec {g : Classes} {nodes : Dict Str Nat} {specs links : Nat → List Nat} (h : Laid g nodes specs links)
    (t : Dict Str Val) :
    Laid ⟨g.size + 1, fun d => if d = g.size then [0] else g.bases d, fun d => if d = g.size then t else g.own d⟩
      nodes specs links := by
  have hlt : ∀ q c, (q, c) ∈ nodes → c < g.size := fun q c hc => (h.comp q c hc).2.1
  have pos := h.pos
  refine ⟨h.ok, h.inj, ?_, Nat.succ_pos _, ?_, h.link, ?_, h.nonempty, h.nodup, h.disjoint, ?_⟩
  · show (if 0 = g.size then [0] else g.bases 0) = []
    rw [if_neg (by omega)]; exact h.root
  · intro p c hc
    have := hlt p c hc
    refine ⟨(h.comp p c hc).1, Nat.lt_succ_of_lt this, ?_⟩
    show (if c = g.size then [0] else g.bases c) = _
    rw [if_neg (by omega)]; exact (h.comp p c hc).2.2
  · intro p c hc s hs
    obtain ⟨h1, h2, h3, h4⟩ := h.spec p c hc s hs
    refine ⟨h1, Nat.lt_succ_of_lt h2, ?_, h4⟩
    show (if s = g.size then [0] else g.bases s) = _
    rw [if_neg (by omega)]; exact h3
  · intro s h1 h2 h3
    show (if s = g.size then [0] else g.bases s) = _
    split
    · rfl
    · exact h.others s (by have : s < g.size + 1 := h1; omega) h2 h3

/-- One more class among the specs of a node. -/
theorem laid_insert {g : Classes} {nodes : Dict Str Nat} {specs links : Nat → List Nat} (h : Laid g nodes specs links)
    {p : Str} {c : Nat} (hc : (p, c) ∈ nodes) {s : Nat} {all : List Nat} (hall : all.Perm (s :: specs c))
    (h0 : 0 < s) (hs : s < g.size) (hb : g.bases s = [0]) (hn : ∀ q, (q, s) ∉ nodes)
    (hf : ∀ q d, (q, d) ∈ nodes → s ∉ specs d) :
    Laid (withBases g c (all ++ links c)) nodes (fun d => if d = c then all else specs d) links := by
  have hbases : ∀ d, d ≠ c → (withBases g c (all ++ links c)).bases d = g.bases d := fun d hd => by
    simp only [Inherit.withBases]; rw [if_neg hd]
  have hcs : ∀ d, (∀ q, (q, d) ∉ nodes) → d ≠ c := by rintro d hd rfl; exact hd p hc
  have cpos := (h.comp p c hc).1
  have hspec : ∀ q d, (q, d) ∈ nodes → ∀ x, x ∈ (if d = c then all else specs d) → x = s ∧ d = c ∨ x ∈ specs d := by
    intro q d hd x hx
    split at hx
    · rename_i e; subst e
      rcases List.mem_cons.1 (hall.mem_iff.1 hx) with rfl | hx
      · exact .inl ⟨rfl, rfl⟩
      · exact .inr hx
    · exact .inr hx
  refine ⟨h.ok, h.inj, ?_, h.pos, ?_, h.link, ?_, ?_, ?_, ?_, ?_⟩
  · rw [hbases 0 (by omega)]; exact h.root
  · intro q d hd
    refine ⟨(h.comp q d hd).1, (h.comp q d hd).2.1, ?_⟩
    by_cases e : d = c
    · subst e; simp [Inherit.withBases]
    · rw [hbases d e, if_neg e]; exact (h.comp q d hd).2.2
  · intro q d hd x hx
    rcases hspec q d hd x hx with ⟨rfl, -⟩ | hx
    · exact ⟨h0, hs, by rw [hbases x (hcs x hn)]; exact hb, hn⟩
    · obtain ⟨h1, h2, h3, h4⟩ := h.spec q d hd x hx
      exact ⟨h1, h2, by rw [hbases x (hcs x h4)]; exact h3, h4⟩
  · intro q d hd
    split
    · intro e; rw [e] at hall; exact absurd hall.length_eq (by simp)
    · exact h.nonempty q d hd
  · intro q d hd
    split
    · rename_i e; subst e
      exact hall.nodup_iff.2 (List.nodup_cons.2 ⟨hf q d hd, h.nodup q d hd⟩)
    · exact h.nodup q d hd
  · intro q d r e hd he x hxd hxe
    rcases hspec q d hd x hxd with ⟨h1, h2⟩ | h1 <;> rcases hspec r e he x hxe with ⟨h3, h4⟩ | h3
    · rw [h2, h4]
    · subst h1; exact absurd h3 (hf r e he)
    · subst h3; exact absurd h1 (hf q d hd)
    · exact h.disjoint q d r e hd he x h1 h3
  · intro x hx h1 h2
    rw [hbases x (hcs x h2)]
    exact h.others x hx h1 h2

/-- The spec is of a layer weaker than the one with that index. -/
def later (layer : Nat → Option Nat) (i b : Nat) : Bool := (layer b).any (fun l => decide (i < l))

/-- The specs of a node, with a new one behind those of layers up to `i`. -/
def around (layer : Nat → Option Nat) (i s : Nat) (specs : List Nat) : List Nat :=
  specs.filter (fun b => !later layer i b) ++ s :: specs.filter (later layer i)

theorem around_perm (layer : Nat → Option Nat) (i s : Nat) (specs : List Nat) : (around layer i s specs).Perm (s :: specs) := by
  unfold around
  refine List.perm_middle.trans (.cons _ ?_)
  exact (List.perm_append_comm).trans (List.filter_append_perm (later layer i) specs)

/-- The specs of a state and the layers. -/
theorem settled_spec {layers : List Comp.LayerNodes} {S : St} {specs links : Nat → List Nat}
    (h : Settled layers S specs links) {p : Str} {c s : Nat} (hc : (p, c) ∈ S.nodes) (hs : s ∈ specs c) :
    ∃ j, S.layer s = some j ∧ (j, S.g.own s) ∈ indexedStack layers p := by
  have : (S.layer s, S.g.own s) ∈ (indexedStack layers p).map (fun x => (some x.1, x.2)) := by
    rw [← h.tables p c hc]; exact List.mem_map_of_mem hs
  obtain ⟨x, hx, e⟩ := List.mem_map.1 this
  have e1 := (Prod.mk.inj e).1
  have e2 := (Prod.mk.inj e).2
  exact ⟨x.1, e1.symm, by rw [← e2]; exact hx⟩

theorem settled_sorted {layers : List Comp.LayerNodes} {S : St} {specs links : Nat → List Nat}
    (h : Settled layers S specs links) {p : Str} {c : Nat} (hc : (p, c) ∈ S.nodes) :
    (specs c).Pairwise (fun a b => ∀ l m, S.layer a = some l → S.layer b = some m → l ≤ m) := by
  have h1 : ((indexedStack layers p).map (fun x => (some x.1, x.2))).Pairwise
      (fun a b : Option Nat × Dict Str Val => ∀ l m, a.1 = some l → b.1 = some m → l ≤ m) := by
    rw [List.pairwise_map]
    refine (stackFrom_sorted layers p 0).imp ?_
    intro a b hab l m hl hm
    rw [← Option.some.inj hl, ← Option.some.inj hm]
    exact Nat.le_of_lt hab
  rw [← h.tables p c hc, List.pairwise_map] at h1
  exact h1

/-- Adding a spec at a path with a composite node. -/
theorem add_there (is : Str → Str → Bool) {layers : List Comp.LayerNodes} {S : St} {specs links : Nat → List Nat}
    (h : Settled layers S specs links) {ns : List Str} (hN : Names ns) {c : Nat} (hc : get? (render ns) S.nodes = some c)
    (i : Nat) (t : Dict Str Val)
    (hw : (∃ b ∈ specs c, later S.layer i b = true) ∨ links c ≠ []) :
    ∃ S', add is S i (parentText ns) (nameText ns) t = some S' ∧ S'.nodes = S.nodes ∧
      Laid S'.g S'.nodes (fun d => if d = c then around S.layer i S.g.size (specs c) else specs d) links ∧
      S'.layer = (fun d => if d = S.g.size then some i else S.layer d) ∧
      S'.addr = (fun d => if d = S.g.size then (parentText ns, nameText ns) else S.addr d) ∧
      S'.g.own S.g.size = t ∧
      (∀ d < S.g.size, d ≠ c → S'.g.own d = S.g.own d) ∧
      (∀ k, k ∉ opinionAttrs → (∀ a ∈ opinionAttrs, k ≠ a ++ "_source__nxt".toList) →
        get? k (S'.g.own c) = get? k (S.g.own c)) ∧
      ∃ S3, S' = updateNode is S3 c ∧ ∀ a ∈ opinionAttrs, ∀ n,
        strongest ((around S.layer i S.g.size (specs c)).map (env is (newSpec S i (parentText ns) (nameText ns) t) c).table) a = some n →
          get? a (S3.g.own c) = some (getAttr n a) := by
  have hmem := mem_of_get? hc
  have hclt := (h.laid.comp _ c hmem).2.1
  have hlt : ∀ q d, (q, d) ∈ S.nodes → d < S.g.size := fun q d hd => (h.laid.comp q d hd).2.1
  generalize hS1 : newSpec S i (parentText ns) (nameText ns) t = S1
  have n1 : S1.nodes = S.nodes := by rw [← hS1]; rfl
  have s1 : S1.g.size = S.g.size + 1 := by rw [← hS1]; rfl
  have b1 : ∀ d < S.g.size, S1.g.bases d = S.g.bases d := fun d hd => by
    rw [← hS1]; show (if d = S.g.size then _ else _) = _; rw [if_neg (by omega)]
  have o1 : ∀ d < S.g.size, S1.g.own d = S.g.own d := fun d hd => by
    rw [← hS1]; show (if d = S.g.size then _ else _) = _; rw [if_neg (by omega)]
  have o1' : S1.g.own S.g.size = t := by rw [← hS1]; show (if S.g.size = S.g.size then _ else _) = _; rw [if_pos rfl]
  have l1 : ∀ d < S.g.size, S1.layer d = S.layer d := fun d hd => by
    rw [← hS1]; show (if d = S.g.size then _ else _) = _; rw [if_neg (by omega)]
  have a1 : ∀ d < S.g.size, S1.addr d = S.addr d := fun d hd => by
    rw [← hS1]; show (if d = S.g.size then _ else _) = _; rw [if_neg (by omega)]
  have hL1 : Laid S1.g S1.nodes specs links := by rw [← hS1]; exact laid_newSpec h.laid t
  have hcomp : ∀ d, isComp S1 d = true ↔ ∃ q, (q, d) ∈ S.nodes := by
    intro d
    unfold isComp
    rw [n1, List.contains_iff_mem, List.mem_map]
    exact ⟨fun ⟨x, h1, h2⟩ => ⟨x.1, by rw [← h2]; exact h1⟩, fun ⟨q, hq⟩ => ⟨(q, d), hq, rfl⟩⟩
  have hspecLt : ∀ q d, (q, d) ∈ S.nodes → ∀ s ∈ specs d, s < S.g.size := fun q d hd s hs => (h.laid.spec q d hd s hs).2.1
  have hnotComp : ∀ s ∈ specs c, isComp S1 s = false := by
    intro s hs
    rw [Bool.eq_false_iff]
    intro e
    obtain ⟨q, hq⟩ := (hcomp s).1 e
    exact (h.laid.spec _ c hmem s hs).2.2.2 q hq
  have hlayerSpec : ∀ s ∈ specs c, layerIdx S1 s = S.layer s := by
    intro s hs
    unfold layerIdx
    rw [hnotComp s hs, if_neg (by simp), l1 s (hspecLt _ c hmem s hs)]
  have harcSpec : ∀ s ∈ specs c, (env is S1 c).arc s = some .reference := by
    intro s hs
    show Targeted.getArc is false (S1.addr c).1 (S1.addr c).2 [] (S1.addr s).1 (S1.addr s).2 = _
    rw [a1 c hclt, a1 s (hspecLt _ c hmem s hs), h.addr ns c hN hmem c List.mem_cons_self,
      h.addr ns c hN hmem s (List.mem_cons_of_mem _ hs)]
    exact (C98_reference is false [] ns ns hN hN).2 rfl
  have hlink : ∀ b ∈ links c, ∃ q, Names q ∧ q.length < ns.length ∧ (render q, b) ∈ S.nodes := by
    intro b hb
    rw [h.link ns c hN hmem] at hb
    cases hnb : nearestAbove S.nodes ns with
    | none => rw [hnb] at hb; exact nomatch hb
    | some b' =>
      rw [hnb] at hb
      rw [show b = b' by simpa using hb]
      obtain ⟨q, h1, h2, h3, -⟩ := nearestAbove_mem hN hnb
      exact ⟨q, h1, h2, h3⟩
  have hbased : Based (env is S1 c) (specs c) (links c) := by
    refine ⟨fun b hb => ⟨hnotComp b hb, rfl, harcSpec b hb⟩, fun b hb => ?_, ?_, fun b hb => ?_, fun b hb _ => ?_⟩
    · obtain ⟨j, hj, -⟩ := settled_spec h hmem hb
      exact ⟨j, (hlayerSpec b hb).trans hj⟩
    · have hs := settled_sorted h hmem
      have : ∀ L : List Nat, (∀ b ∈ L, b ∈ specs c) →
          L.Pairwise (fun a b => ∀ l m, S.layer a = some l → S.layer b = some m → l ≤ m) →
          L.Pairwise (fun a b => ∀ l m, (env is S1 c).layer a = some l → (env is S1 c).layer b = some m → l ≤ m) := by
        intro L hL
        refine List.Pairwise.imp_of_mem ?_
        intro a b ha hb hab l m hl hm
        exact hab l m ((hlayerSpec a (hL a ha)).symm.trans hl) ((hlayerSpec b (hL b hb)).symm.trans hm)
      exact this _ (fun _ h => h) hs
    · obtain ⟨q, h1, h2, h3⟩ := hlink b hb
      refine ⟨(hcomp b).2 ⟨_, h3⟩, ?_⟩
      show Targeted.getArc is false (S1.addr c).1 (S1.addr c).2 [] (S1.addr b).1 (S1.addr b).2 ≠ _
      rw [a1 c hclt, a1 b (hlt _ b h3), h.addr ns c hN hmem c List.mem_cons_self, h.addr q b h1 h3 b List.mem_cons_self]
      intro e
      have := (C98_reference is false [] ns q hN h1).1 e
      subst this; omega
    · obtain ⟨q, h1, h2, h3⟩ := hlink b hb
      obtain ⟨s, r, hs⟩ := List.exists_cons_of_ne_nil (h.laid.nonempty _ b h3)
      obtain ⟨j, hj, -⟩ := settled_spec h h3 (s := s) (by rw [hs]; simp)
      refine ⟨j, ?_⟩
      show layerIdx S1 b = some j
      unfold layerIdx
      rw [(hcomp b).2 ⟨_, h3⟩, if_pos rfl, b1 b (hlt _ b h3), (h.laid.comp _ b h3).2.2, hs]
      show S1.layer s = some j
      rw [l1 s (hspecLt _ b h3 s (by rw [hs]; simp)), hj]
  have hweak : ∀ b ∈ specs c, decide (Weaker (env is S1 c) i b) = later S.layer i b := by
    intro b hb
    unfold later
    obtain ⟨j, hj, -⟩ := settled_spec h hmem hb
    rw [hj, Option.any_some]
    congr 1
    refine propext ⟨?_, fun hi => ⟨j, (hlayerSpec b hb).trans hj, hi⟩⟩
    rintro ⟨l, hl, hi⟩
    have : some l = some j := hl.symm.trans ((hlayerSpec b hb).trans hj)
    rwa [← Option.some.inj this]
  have hnd : (specs c ++ links c).Nodup := by
    refine List.nodup_append.2 ⟨h.laid.nodup _ c hmem, ?_, ?_⟩
    · rw [h.link ns c hN hmem]
      cases nearestAbove S.nodes ns <;> simp
    · rintro a ha b hb rfl
      obtain ⟨q, -, -, h3⟩ := hlink a hb
      exact (h.laid.spec _ c hmem a ha).2.2.2 _ h3
  have hnew : S.g.size ∉ specs c ++ links c := by
    intro hm
    rcases List.mem_append.1 hm with hm | hm
    · have := hspecLt _ c hmem _ hm; omega
    · obtain ⟨q, -, -, h3⟩ := hlink _ hm
      have := hlt _ _ h3; omega
  obtain ⟨n, hn1, hn2, hn3, -, hn5⟩ := C96_insert_partial (env is S1 c) (render ns) i S.g.size (specs c) (links c) (S.g.own c)
    hbased hnd hnew (h.laid.nonempty _ c hmem) (by
      rcases hw with ⟨b, h1, h2⟩ | hne
      · refine .inl ⟨b, h1, ?_⟩
        rw [← hweak b h1] at h2
        exact of_decide_eq_true h2
      · obtain ⟨b, r, hb⟩ := List.exists_cons_of_ne_nil hne
        exact .inr ⟨b, by rw [hb]; simp, rfl⟩)
  have hall : (specs c).filter (fun b => ¬ Weaker (env is S1 c) i b) ++ S.g.size ::
      (specs c).filter (fun b => Weaker (env is S1 c) i b) = around S.layer i S.g.size (specs c) := by
    unfold around
    congr 1
    · refine List.filter_congr fun b hb => ?_
      rw [← hweak b hb, decide_not]
    · congr 1
      exact List.filter_congr fun b hb => hweak b hb
  rw [hall] at hn2 hn3
  have hL2 := laid_insert hL1 (p := render ns) (c := c) (by rw [n1]; exact hmem) (around_perm S.layer i S.g.size (specs c))
    (by have := h.laid.pos; omega) (by omega)
    (by rw [← hS1]; show (if S.g.size = S.g.size then _ else _) = _; rw [if_pos rfl])
    (fun q hq => by rw [n1] at hq; have := hlt _ _ hq; omega)
    (fun q d hd hs => by rw [n1] at hd; have := hspecLt q d hd _ hs; omega)
  have hset : S1.g.setBases c n.bases = some (withBases S1.g c (around S.layer i S.g.size (specs c) ++ links c)) := by
    rw [hn2]
    refine setBases_eq.2 ⟨rfl, Laid.all_lin hL2 fun p' d hd => ?_⟩
    have hd' : (p', d) ∈ S.nodes := by rw [← n1]; exact hd
    obtain ⟨ms, hM, rfl⟩ := h.path p' d hd'
    obtain ⟨l, hl, -⟩ := Laid.lin_parents hL2 (fun ms d hM hd => .inr (by
      rw [n1] at hd ⊢; exact h.link ms d hM hd)) (ms.length + 1) ms d (by omega) hM hd
    exact ⟨l, hl⟩
  generalize hg2 : withBases S1.g c (around S.layer i S.g.size (specs c) ++ links c) = g2 at hL2 hset
  have g2own : g2.own = S1.g.own := by rw [← hg2]; rfl
  have hinto : intoComp is S1 i S.g.size c (render ns) = some { S1 with g := setOwn g2 c n.own } := by
    unfold intoComp
    have hb : S1.g.bases c = specs c ++ links c := by rw [b1 c hclt]; exact (h.laid.comp _ c hmem).2.2
    rw [hb, o1 c hclt, hn1, Option.bind_some, hset]
    rfl
  generalize hS3 : ({ S1 with g := setOwn g2 c n.own } : St) = S3 at hinto
  have n3 : S3.nodes = S.nodes := by rw [← hS3]; exact n1
  have hparent : addParent S3 c (parentText ns) = some S3 := by
    have hpn := parentNode_eq S3 hN
    rw [n3] at hpn
    unfold addParent
    rw [hpn]
    cases hnb : nearestAbove S.nodes ns with
    | none => rfl
    | some b =>
      simp only
      have : b ∈ S3.g.bases c := by
        rw [← hS3]
        show b ∈ g2.bases c
        rw [(hL2.comp _ c (by rw [n1]; exact hmem)).2.2, h.link ns c hN hmem, hnb]
        simp
      unfold Classes.safeAddBase
      rw [if_pos this]
      rfl
  obtain ⟨u1, u2, u3, u4, u5, u6, u7⟩ := updateNode_spec is S3 c
  refine ⟨updateNode is S3 c, ?_, ?_, ?_, ?_, ?_, ?_, ?_, ?_, S3, rfl, ?_⟩
  · unfold add
    simp only [join_text ns hN, hc, hS1, hinto]
    unfold finish
    rw [Option.bind_some, hparent]
    rfl
  · rw [u1]; exact n3
  · rw [u1, n3, ← n1]
    refine Laid.congr hL2 ?_ ?_
    · rw [u4, ← hS3]; rfl
    · rw [u5, ← hS3]; rfl
  · rw [u2, ← hS3]; show S1.layer = _; rw [← hS1]; rfl
  · rw [u3, ← hS3]; show S1.addr = _; rw [← hS1]; rfl
  · rw [u6 _ (by omega), ← hS3]
    show (if S.g.size = c then _ else g2.own S.g.size) = _
    rw [if_neg (by omega), g2own]; exact o1'
  · intro d hd hdc
    rw [u6 d hdc, ← hS3]
    show (if d = c then _ else g2.own d) = _
    rw [if_neg hdc, g2own]; exact o1 d hd
  · intro k hk hk'
    rw [u7 k hk, ← hS3]
    show get? k (if c = c then n.own else _) = _
    rw [if_pos rfl]
    exact hn5 k hk hk'
  · intro a ha m hm
    rw [← hS3]
    show get? a (if c = c then n.own else _) = _
    rw [if_pos rfl]
    exact (hn3 a ha m hm).1

/-! ### Steps -/

theorem putSpec_stack_same {layers : List Comp.LayerNodes} {i : Nat} {p : Str} {n : Dict Str Val} {l : Comp.LayerNodes}
    (hl : layers[i]? = some l) (hg : get? p l = none) : stack (putSpec layers i p n) p ≠ [] := by
  rw [← stackFrom_stack _ _ 0, stackFrom_same n layers 0 i l hl hg]
  simp

theorem putSpec_stack_other {layers : List Comp.LayerNodes} {i : Nat} {p q : Str} {n : Dict Str Val} (hne : q ≠ p) :
    stack (putSpec layers i p n) q = stack layers q := by
  rw [← stackFrom_stack _ _ 0, stackFrom_other hne, stackFrom_stack]

theorem putSpec_indexed_other {layers : List Comp.LayerNodes} {i : Nat} {p q : Str} {n : Dict Str Val} (hne : q ≠ p) :
    indexedStack (putSpec layers i p n) q = indexedStack layers q := stackFrom_other hne n layers 0 i

theorem child_order_internal {b : List Str} {k : Str} (hk : UserName b k) : k ≠ "_child_order".toList := by
  rintro rfl; exact hk.2.1 (by decide +kernel)

/-- A new node below nothing: the state then stands for the layers with the spec. -/
theorem settled_free (is : Str → Str → Bool) {layers : List Comp.LayerNodes} {S : St} {specs links : Nat → List Nat}
    (h : Settled layers S specs links) {ns : List Str} {c : Call} (ha : Addable layers ns c)
    (hf : stack layers (render ns) = []) :
    ∃ S' specs' links', add is S c.layer c.par c.name c.table = some S' ∧
      Settled (putSpec layers c.layer (render ns) c.table) S' specs' links' := by
  have hN := ha.names
  have hfree : get? (render ns) S.nodes = none := (h.free _).2 hf
  obtain ⟨S', h1, h2, h3, h4, h5, h6, h7, h8, h9, h10, h11, -⟩ := add_free is h hN hfree c.layer c.table
  rw [ha.par, ha.name]
  refine ⟨S', fun d => if d = S.g.size then [S.g.size + 1] else specs d,
    fun d => if d = S.g.size then (nearestAbove S.nodes ns).toList else links d, h1, ?_⟩
  obtain ⟨l, hl, hg⟩ := ha.layer
  have hmem : ∀ q d, (q, d) ∈ S'.nodes → ((q, d) ∈ S.nodes ∧ d < S.g.size ∧ q ≠ render ns) ∨ (q = render ns ∧ d = S.g.size) := by
    intro q d hd
    rw [h2, set_of_not_mem (get?_eq_none.1 hfree)] at hd
    rcases List.mem_append.1 hd with hd | hd
    · refine .inl ⟨hd, (h.laid.comp q d hd).2.1, ?_⟩
      rintro rfl
      rw [get?_of_mem h.laid.ok hd] at hfree; cases hfree
    · exact .inr (Prod.mk.inj (List.mem_singleton.1 hd))
  have hspecLt : ∀ q d, (q, d) ∈ S.nodes → ∀ s ∈ specs d, s < S.g.size := fun q d hd s hs => (h.laid.spec q d hd s hs).2.1
  refine ⟨h3, ?_, ?_, ?_, ?_, ?_, ?_, ?_⟩
  · intro q d hd
    rcases hmem q d hd with ⟨hd, -, -⟩ | ⟨rfl, -⟩
    · exact h.path q d hd
    · exact ⟨ns, hN, rfl⟩
  · intro ms d hM hd
    rw [h2, nearestAbove_set _ hN hM]
    · rcases hmem _ d hd with ⟨hd, hlt, -⟩ | ⟨e, rfl⟩
      · rw [if_neg (by omega)]; exact h.link ms d hM hd
      · rw [if_pos rfl, Path.render_inj hM hN e]
    · rintro ⟨m, r, rfl⟩
      rcases hmem _ d hd with ⟨hd, -, -⟩ | ⟨e, -⟩
      · have := (h.free _).2 (ha.leaf hf m r hM)
        rw [get?_of_mem h.laid.ok hd] at this; cases this
      · have := congrArg List.length (Path.render_inj hM hN e)
        simp at this
  · intro p
    rw [h2, get?_set]
    by_cases e : p = render ns
    · subst e
      rw [if_pos rfl]
      simp only [reduceCtorEq, false_iff]
      exact putSpec_stack_same hl hg
    · rw [if_neg e, putSpec_stack_other e]; exact h.free p
  · intro q d hd
    rcases hmem q d hd with ⟨hd, hlt, hne⟩ | ⟨rfl, rfl⟩
    · rw [if_neg (by omega), putSpec_indexed_other hne, ← h.tables q d hd]
      refine List.map_congr_left fun s hs => ?_
      have := hspecLt q d hd s hs
      rw [h6, h9 s this (h.laid.spec q d hd s hs).2.2.2]
      simp only
      rw [if_neg (by omega)]
    · rw [if_pos rfl]
      have e1 : indexedStack layers (render ns) = [] := by
        have := stackFrom_stack layers (render ns) 0
        rw [hf] at this
        exact List.map_eq_nil_iff.1 this
      have e2 : indexedStack (putSpec layers c.layer (render ns) c.table) (render ns) = [(c.layer, c.table)] := by
        have := stackFrom_same c.table layers 0 c.layer l hl hg
        unfold indexedStack at e1 ⊢
        unfold stackFrom at this
        rw [this, e1]; simp
      rw [e2, h6]
      simp only [List.map_cons, List.map_nil, if_true]
      rw [h8]
  · intro ms d hM hd e he
    rw [h7]
    simp only
    rcases hmem _ d hd with ⟨hd, hlt, -⟩ | ⟨e', rfl⟩
    · rw [if_neg (by omega)] at he
      have : e < S.g.size := by
        rcases List.mem_cons.1 he with rfl | he
        · exact hlt
        · exact hspecLt _ d hd e he
      rw [if_neg (by omega)]
      exact h.addr ms d hM hd e he
    · rw [if_pos rfl] at he
      have : e = S.g.size ∨ e = S.g.size + 1 := by simpa using he
      rw [if_pos this, Path.render_inj hM hN e']
  · intro q d hd b k hk
    rcases hmem q d hd with ⟨hd, hlt, -⟩ | ⟨-, rfl⟩
    · rw [h10 d hlt k (child_order_internal hk)]; exact h.own q d hd b k hk
    · exact h11 k (child_order_internal hk) (opinion_internal hk)
  · intro b k hk
    rw [h10 0 h.laid.pos k (child_order_internal hk)]; exact h.node b k hk

theorem nearestAbove_some {nodes : Dict Str Nat} {q : List Str} {m : Str} {ms : List Str} {b : Nat}
    (h : get? (render q) nodes = some b) : (nearestAbove nodes (q ++ m :: ms)).isSome := by
  rcases Path.eq_nil_or_snoc (m :: ms) with h0 | ⟨r, x, hr⟩
  · cases h0
  · rw [hr, ← List.append_assoc, nearestAbove_snoc, List.findSome?_isSome_iff]
    exact ⟨q, mem_lineage.2 ⟨r, rfl⟩, by rw [h]; rfl⟩

/-- One more spec of a node: the state then stands for the layers with the spec. -/
theorem settled_there (is : Str → Str → Bool) {layers : List Comp.LayerNodes} {S : St} {specs links : Nat → List Nat}
    (h : Settled layers S specs links) {ns : List Str} {call : Call} (ha : Addable layers ns call)
    (hf : stack layers (render ns) ≠ []) :
    ∃ S' c, get? (render ns) S.nodes = some c ∧ ((∃ b ∈ specs c, later S.layer call.layer b = true) ∨ links c ≠ []) ∧
      add is S call.layer call.par call.name call.table = some S' ∧
      Settled (putSpec layers call.layer (render ns) call.table) S'
        (fun d => if d = c then around S.layer call.layer S.g.size (specs c) else specs d) links := by
  have hN := ha.names
  cases hc : get? (render ns) S.nodes with
  | none => exact absurd ((h.free _).1 hc) hf
  | some c =>
    have hcm := mem_of_get? hc
    obtain ⟨l, hl, hg⟩ := ha.layer
    have hw : (∃ b ∈ specs c, later S.layer call.layer b = true) ∨ links c ≠ [] := by
      rcases ha.place hf with ⟨j, l', h1, h2, h3⟩ | ⟨q, m, ms, h1, h2⟩
      · obtain ⟨n, hn⟩ := Option.isSome_iff_exists.1 h3
        have := stackFrom_mem layers (render ns) l' n hn 0 j h2
        rw [Nat.zero_add] at this
        have : (some j, n) ∈ (specs c).map (fun s => (S.layer s, S.g.own s)) := by
          rw [h.tables _ c hcm]
          exact List.mem_map.2 ⟨(j, n), this, rfl⟩
        obtain ⟨s, hs, e⟩ := List.mem_map.1 this
        refine .inl ⟨s, hs, ?_⟩
        unfold later
        rw [(Prod.mk.inj e).1]
        simpa using h1
      · right
        rw [h.link ns c hN hcm]
        cases hq : get? (render q) S.nodes with
        | none => exact absurd ((h.free _).1 hq) h2
        | some b =>
          obtain ⟨b', hb'⟩ := Option.isSome_iff_exists.1 (nearestAbove_some (m := m) (ms := ms) hq)
          rw [h1, hb']; simp
    obtain ⟨S', h1, h2, h3, h4, h5, h6, h7, h8, -⟩ := add_there is h hN hc call.layer call.table hw
    rw [ha.par, ha.name]
    refine ⟨S', c, rfl, hw, h1, ?_⟩
    have hclt := (h.laid.comp _ c hcm).2.1
    have hlt : ∀ q d, (q, d) ∈ S.nodes → d < S.g.size := fun q d hd => (h.laid.comp q d hd).2.1
    have hspecLt : ∀ q d, (q, d) ∈ S.nodes → ∀ s ∈ specs d, s < S.g.size := fun q d hd s hs => (h.laid.spec q d hd s hs).2.1
    have hspecNe : ∀ q d, (q, d) ∈ S.nodes → ∀ s ∈ specs d, s ≠ c := by
      rintro q d hd s hs rfl
      exact (h.laid.spec q d hd s hs).2.2.2 _ hcm
    have hpair : ∀ q d, (q, d) ∈ S.nodes → ∀ s ∈ specs d, (S'.layer s, S'.g.own s) = (S.layer s, S.g.own s) := by
      intro q d hd s hs
      have := hspecLt q d hd s hs
      rw [h4, h7 s this (hspecNe q d hd s hs)]
      simp only
      rw [if_neg (by omega)]
    refine ⟨h3, ?_, ?_, ?_, ?_, ?_, ?_, ?_⟩
    · rw [h2]; exact h.path
    · rw [h2]; exact h.link
    · intro p
      rw [h2]
      by_cases e : p = render ns
      · subst e
        rw [hc]
        simp only [reduceCtorEq, false_iff]
        exact putSpec_stack_same hl hg
      · rw [putSpec_stack_other e]; exact h.free p
    · rw [h2]
      intro q d hd
      by_cases e : d = c
      · subst e
        obtain rfl := h.laid.inj _ _ _ hd hcm
        rw [if_pos rfl]
        have e2 : indexedStack (putSpec layers call.layer (render ns) call.table) (render ns) =
            (indexedStack layers (render ns)).filter (fun x => ¬ call.layer < x.1) ++ (call.layer, call.table) ::
              (indexedStack layers (render ns)).filter (fun x => call.layer < x.1) := by
          have := stackFrom_same call.table layers 0 call.layer l hl hg
          rw [Nat.zero_add] at this
          exact this
        have ht := h.tables _ d hcm
        -- both halves of the specs
        have half : ∀ P : Nat → Bool,
            ((specs d).filter (fun s => (S.layer s).any P)).map (fun s => (S'.layer s, S'.g.own s)) =
              ((indexedStack layers (render ns)).filter (fun x => P x.1)).map (fun x => (some x.1, x.2)) := by
          intro P
          have e3 : ((specs d).filter (fun s => (S.layer s).any P)).map (fun s => (S'.layer s, S'.g.own s)) =
              ((specs d).filter (fun s => (S.layer s).any P)).map (fun s => (S.layer s, S.g.own s)) :=
            List.map_congr_left fun s hs => hpair _ d hcm s (List.mem_filter.1 hs).1
          rw [e3]
          have e4 : ((specs d).filter (fun s => (S.layer s).any P)).map (fun s => (S.layer s, S.g.own s)) =
              ((specs d).map (fun s => (S.layer s, S.g.own s))).filter (fun x => x.1.any P) := by
            rw [List.filter_map]; rfl
          rw [e4, ht, List.filter_map]
          rfl
        have hb := half (fun j => decide (call.layer < j))
        have ha' := half (fun j => !decide (call.layer < j))
        have hflt : (specs d).filter (fun s => !later S.layer call.layer s) =
            (specs d).filter (fun s => (S.layer s).any (fun j => !decide (call.layer < j))) := by
          refine List.filter_congr fun s hs => ?_
          obtain ⟨j, hj, -⟩ := settled_spec h hcm hs
          unfold later
          rw [hj]; rfl
        unfold around
        rw [e2, List.map_append, List.map_cons, List.map_append, List.map_cons, hflt, ha']
        have : (specs d).filter (later S.layer call.layer) = (specs d).filter (fun s => (S.layer s).any (fun j => decide (call.layer < j))) := rfl
        rw [this, hb, h4, h6]
        simp only [decide_not, if_true]
      · have hne : q ≠ render ns := by
          rintro rfl
          have := get?_of_mem h.laid.ok hd
          rw [hc] at this
          exact e (Option.some.inj this).symm
        rw [if_neg e, putSpec_indexed_other hne, ← h.tables q d hd]
        exact List.map_congr_left fun s hs => hpair q d hd s hs
    · rw [h2]
      intro ms d hM hd e he
      rw [h5]
      simp only
      by_cases hed : d = c
      · subst hed
        have hms := Path.render_inj hM hN (h.laid.inj _ _ _ hd hcm)
        subst hms
        rw [if_pos rfl] at he
        by_cases hes : e = S.g.size
        · rw [if_pos hes]
        · rw [if_neg hes]
          refine h.addr _ d hM hd e ?_
          rcases List.mem_cons.1 he with rfl | he
          · exact List.mem_cons_self
          · rcases List.mem_cons.1 ((around_perm _ _ _ _).mem_iff.1 he) with he | he
            · exact absurd he hes
            · exact List.mem_cons_of_mem _ he
      · rw [if_neg hed] at he
        have : e < S.g.size := by
          rcases List.mem_cons.1 he with rfl | he
          · exact hlt _ _ hd
          · exact hspecLt _ d hd e he
        rw [if_neg (by omega)]
        exact h.addr ms d hM hd e he
    · rw [h2]
      intro q d hd b k hk
      by_cases e : d = c
      · subst e
        rw [h8 k (opinion_internal hk) (fun a _ => source_reserved hk a)]
        exact h.own q d hd b k hk
      · rw [h7 d (hlt q d hd) e]; exact h.own q d hd b k hk
    · intro b k hk
      have := (h.laid.comp _ c hcm).1
      rw [h7 0 h.laid.pos (by omega)]; exact h.node b k hk

theorem settled_add (is : Str → Str → Bool) {layers : List Comp.LayerNodes} {S : St} {specs links : Nat → List Nat}
    (h : Settled layers S specs links) {ns : List Str} {c : Call} (ha : Addable layers ns c) :
    ∃ S' specs' links', add is S c.layer c.par c.name c.table = some S' ∧
      Settled (putSpec layers c.layer (render ns) c.table) S' specs' links' := by
  by_cases hf : stack layers (render ns) = []
  · exact settled_free is h ha hf
  · obtain ⟨S', c, -, -, h1, h2⟩ := settled_there is h ha hf
    exact ⟨S', _, _, h1, h2⟩

/-! ### The state after a composition -/

/-- Without instances, the instance arc changes nothing. -/
theorem composed_parents {layers : List Comp.LayerNodes} (h : SpecNodes layers)
    (hno : ∀ l ∈ layers, ∀ p n, (p, n) ∈ l → get? "_instance".toList n = some .none) {order : List (Str × Nat)}
    (ho : order.Perm (classesOf layers).2) :
    ∃ g' links, postProxy (classesOf layers).2 order (classesOf layers).1 = some g' ∧
      g'.own = (classesOf layers).1.own ∧ Laid g' (classesOf layers).2 (classesOf layers).1.bases links ∧
      ∀ ns c, Names ns → (render ns, c) ∈ (classesOf layers).2 →
        links c = (nearestAbove (classesOf layers).2 ns).toList := by
  obtain ⟨hL, hp, hpar, _, _⟩ := classesOf_ready h
  obtain ⟨_, _, htab, _⟩ := classesOf_spec h
  have hnd : (classesOf layers).2.Nodup := by
    have : (keys (classesOf layers).2).Nodup := hL.ok
    exact (List.pairwise_map.1 this).imp (fun h e => h (by rw [e]))
  obtain ⟨g', h1, h2, h3, links, h4, h5⟩ := parents_fold (specs := (classesOf layers).1.bases) hp hpar order []
    (classesOf layers).1 (fun x hx => ho.mem_iff.1 hx) (by rw [List.nil_append]; exact ho.nodup_iff.2 hnd)
    ⟨rfl, rfl, fun _ => [], hL, fun _ _ _ _ => rfl⟩
  have hlinks : ∀ ns c, Names ns → (render ns, c) ∈ (classesOf layers).2 →
      links c = (nearestAbove (classesOf layers).2 ns).toList := by
    intro ns c hN hc
    rw [h5 ns c hN hc, if_pos]
    rw [List.nil_append]; exact ho.mem_iff.2 hc
  refine ⟨g', links, ?_, h2, h4, hlinks⟩
  unfold postProxy
  rw [h1, Option.bind_some]
  refine instances_none order fun pc hpc s hs => ?_
  have hm := ho.mem_iff.1 hpc
  obtain ⟨p, c⟩ := pc
  obtain ⟨ns, hN, rfl⟩ := hp p c hm
  obtain ⟨hne, ht⟩ := htab _ c hm
  have hall : ∀ n ∈ stack layers (render ns), get? A_INSTANCE n = some .none := by
    intro n hn
    obtain ⟨l, hl, hm⟩ := mem_stack hn
    exact hno l hl _ n hm
  obtain ⟨l, hl, hv⟩ := attr_lineage h4 hlinks A_INSTANCE (ns.length + 1) ns c (by omega) hN hm
  have hattr : g'.attr c A_INSTANCE = .none := by
    unfold Classes.attr Classes.attr?
    rw [(Laid.mro_iff h4 (h4.comp _ c hm).2.1).2 hl, Option.bind_some, hv]
    obtain ⟨t, hlt⟩ := lineage_head ns
    unfold inherited
    rw [hlt, List.findSome?_cons]
    simp only [get?_of_mem hL.ok hm, Option.map_some, Option.bind_some]
    have e : tablesOf g' (classesOf layers).1.bases c = tablesOf (classesOf layers).1 (classesOf layers).1.bases c := by
      unfold tablesOf; rw [h2]
    rw [e, ht]
    unfold firstTable
    obtain ⟨n, r, hr⟩ := List.exists_cons_of_ne_nil hne
    have hn := hall n (by rw [hr]; simp)
    have hown : get? A_INSTANCE (Comp.compNode (render ns) (stack layers (render ns))).own = none ∨
        get? A_INSTANCE (Comp.compNode (render ns) (stack layers (render ns))).own = some .none := by
      left
      unfold Comp.compNode
      simp only
      rw [get?_set, if_neg (by decide +kernel)]
      have hnone : strongest (stack layers (render ns)) A_INSTANCE = none := by
        unfold strongest
        rw [List.find?_eq_none]
        intro n hn
        rw [getAttr_of_get? (hall n hn)]
        decide
      have key : ∀ own co, get? A_INSTANCE own = none →
          get? A_INSTANCE ((stack layers (render ns)).reverse.foldl (Comp.overloadBase (render ns)) (own, co)).1 = none := by
        intro own co hown
        have := (Comp.overload_fold (render ns) (stack layers (render ns)) own co A_INSTANCE (by decide +kernel)).1
        rw [hnone] at this
        exact this.trans hown
      apply key
      cases (stack layers (render ns)).head? with
      | none => rfl
      | some m => simp only [get?]; rw [if_neg (by decide +kernel)]
    rw [List.findSome?_cons]
    rcases hown with ho' | ho'
    · rw [ho']
      simp only
      rw [hr, List.findSome?_cons, hn]
      rfl
    · rw [ho']; rfl
  simp only at hs
  rw [hattr] at hs
  cases hs

open Classical in
/-- A full composition of layers without instances gives a state which stands for them. -/
theorem composed_settled {layers : List Comp.LayerNodes} (h : SpecNodes layers)
    (hno : ∀ l ∈ layers, ∀ p n, (p, n) ∈ l → get? "_instance".toList n = some .none) {order : List (Str × Nat)}
    (ho : order.Perm (classesOf layers).2) :
    ∃ g' layer addr links, postProxy (classesOf layers).2 order (classesOf layers).1 = some g' ∧
      Settled layers ⟨g', (classesOf layers).2, layer, addr⟩ (classesOf layers).1.bases links := by
  obtain ⟨hL, hp, -, -, -⟩ := classesOf_ready h
  obtain ⟨-, hnode, htab, hkeys⟩ := classesOf_spec h
  obtain ⟨g', links, h1, h2, h3, h4⟩ := composed_parents h hno ho
  generalize hspecs : (classesOf layers).1.bases = specs at *
  let layer : Nat → Option Nat := fun d =>
    if e : ∃ x : Str × Nat × Nat, (x.1, x.2.1) ∈ (classesOf layers).2 ∧ (specs x.2.1)[x.2.2]? = some d then
      ((indexedStack layers (choose e).1)[(choose e).2.2]?).map Prod.fst
    else none
  let addr : Nat → Str × Str := fun d =>
    if e : ∃ x : List Str × Nat, Names x.1 ∧ (render x.1, x.2) ∈ (classesOf layers).2 ∧ d ∈ x.2 :: specs x.2 then
      (parentText (choose e).1, nameText (choose e).1)
    else ([], [])
  refine ⟨g', layer, addr, links, h1, h3, hp, h4, hkeys, ?_, ?_, ?_, ?_⟩
  · intro p c hc
    have hown : (specs c).map g'.own = stack layers p := by
      have := (htab p c hc).2
      rw [h2]
      exact (List.cons.inj this).2
    rw [← stackFrom_stack layers p 0] at hown
    change (specs c).map g'.own = (indexedStack layers p).map Prod.snd at hown
    apply List.ext_getElem?
    intro j
    rw [List.getElem?_map, List.getElem?_map]
    have hj := congrArg (·[j]?) hown
    simp only [List.getElem?_map] at hj
    cases hs : (specs c)[j]? with
    | none =>
      rw [hs] at hj
      cases hi : (indexedStack layers p)[j]? with
      | none => rfl
      | some x => rw [hi] at hj; cases hj
    | some s =>
      rw [hs] at hj
      cases hi : (indexedStack layers p)[j]? with
      | none => rw [hi] at hj; cases hj
      | some x =>
        rw [hi] at hj
        have hlayer : layer s = some x.1 := by
          have e : ∃ x : Str × Nat × Nat, (x.1, x.2.1) ∈ (classesOf layers).2 ∧ (specs x.2.1)[x.2.2]? = some s := ⟨(p, c, j), hc, hs⟩
          show (if e : _ then _ else _) = _
          rw [dif_pos e]
          obtain ⟨q1, q2⟩ := choose_spec e
          generalize choose e = y at q1 q2
          have hcc : y.2.1 = c := h3.disjoint _ _ _ _ q1 hc s (List.mem_of_getElem? q2) (List.mem_of_getElem? hs)
          rw [hcc] at q1 q2
          have hpp : y.1 = p := h3.inj _ _ _ q1 hc
          have hjj : y.2.2 = j := by
            exact List.getElem?_inj (List.getElem?_eq_some_iff.1 q2).1 (h3.nodup p c hc) |>.1 (q2.trans hs.symm)
          rw [hpp, hjj, hi]; rfl
        simp only [Option.map_some, Option.some.injEq] at hj ⊢
        rw [hlayer, hj]
  · intro ns c hN hc d hd
    have e : ∃ x : List Str × Nat, Names x.1 ∧ (render x.1, x.2) ∈ (classesOf layers).2 ∧ d ∈ x.2 :: specs x.2 := ⟨(ns, c), hN, hc, hd⟩
    show (if e : _ then _ else _) = _
    rw [dif_pos e]
    obtain ⟨q1, q2, q3⟩ := choose_spec e
    generalize choose e = y at q1 q2 q3
    have hcc : y.2 = c := by
      rcases List.mem_cons.1 q3 with rfl | q3 <;> rcases List.mem_cons.1 hd with hd | hd
      · exact hd
      · exact absurd q2 ((h3.spec _ c hc _ hd).2.2.2 _)
      · subst hd; exact absurd hc ((h3.spec _ _ q2 _ q3).2.2.2 _)
      · exact h3.disjoint _ _ _ _ q2 hc d q3 hd
    rw [hcc] at q2
    rw [Path.render_inj q1 hN (h3.inj _ _ _ q2 hc)]
  · intro p c hc b k hk
    show get? k (g'.own c) = none
    have := (List.cons.inj (htab p c hc).2).1
    rw [h2, this]
    have hint : k ∉ internalNames := hk.2.1
    apply own_other
    · intro hm
      have : ∀ x ∈ Comp.OVERLOAD, x ∈ internalNames := by decide +kernel
      exact hint (this k hm)
    · intro x _
      exact hk.2.2 "source".toList (by decide +kernel) x
    · rintro rfl; exact hint (by decide +kernel)
    · rintro rfl; exact hint (by decide +kernel)
  · intro b k hk
    show get? k (g'.own 0) = none
    rw [h2, hnode, get?_eq_none]
    intro hm
    have : ∀ x ∈ keys NODE_CLASS, x ∈ internalNames := by decide +kernel
    exact hk.2.1 (this k hm)

/-! ### Layers with more specs -/

theorem mem_putSpec {layers : List Comp.LayerNodes} {i : Nat} {p : Str} {n : Dict Str Val} {l : Comp.LayerNodes}
    (h : l ∈ putSpec layers i p n) : l ∈ layers ∨ ∃ m ∈ layers, l = Dict.set p n m := by
  unfold putSpec at h
  induction layers generalizing i with
  | nil => simp at h
  | cons m layers ih =>
    cases i with
    | zero =>
      rw [List.modify_zero_cons] at h
      rcases List.mem_cons.1 h with rfl | h
      · exact .inr ⟨m, by simp, rfl⟩
      · exact .inl (List.mem_cons_of_mem _ h)
    | succ i =>
      rw [List.modify_succ_cons] at h
      rcases List.mem_cons.1 h with rfl | h
      · exact .inl List.mem_cons_self
      · rcases ih h with h | ⟨x, h1, h2⟩
        · exact .inl (List.mem_cons_of_mem _ h)
        · exact .inr ⟨x, List.mem_cons_of_mem _ h1, h2⟩

theorem mem_node_putSpec {layers : List Comp.LayerNodes} (hok : ∀ l ∈ layers, Dict.Ok l) {i : Nat} {p : Str} {n : Dict Str Val}
    {l : Comp.LayerNodes} (h : l ∈ putSpec layers i p n) {q : Str} {m : Dict Str Val} (hm : (q, m) ∈ l) :
    (q = p ∧ m = n) ∨ ∃ l' ∈ layers, (q, m) ∈ l' := by
  rcases mem_putSpec h with h | ⟨l', h1, rfl⟩
  · exact .inr ⟨l, h, hm⟩
  · have := get?_of_mem (ok_set (hok l' h1) p n) hm
    rw [get?_set] at this
    split at this
    · rename_i e
      exact .inl ⟨e, (Option.some.inj this).symm⟩
    · exact .inr ⟨l', h1, mem_of_get? this⟩

theorem specNodes_put {layers : List Comp.LayerNodes} (h : SpecNodes layers) {ns : List Str} {c : Call}
    (ha : Addable layers ns c) : SpecNodes (putSpec layers c.layer (render ns) c.table) where
  ok := by
    intro l hl
    rcases mem_putSpec hl with hl | ⟨m, h1, rfl⟩
    · exact h.ok l hl
    · exact ok_set (h.ok m h1) _ _
  path := by
    intro l hl p n hn
    rcases mem_node_putSpec h.ok hl hn with ⟨rfl, -⟩ | ⟨l', h1, h2⟩
    · exact ⟨ns, ha.names, rfl⟩
    · exact h.path l' h1 p n h2
  parent := by
    intro l hl ms n hM hn
    rcases mem_node_putSpec h.ok hl hn with ⟨e, rfl⟩ | ⟨l', h1, h2⟩
    · rw [Path.render_inj hM ha.names e]; exact ha.table.parent
    · exact h.parent l' h1 ms n hM h2
  keys := by
    intro l hl p n hn a haa
    rcases mem_node_putSpec h.ok hl hn with ⟨-, rfl⟩ | ⟨l', h1, h2⟩
    · rcases List.mem_cons.1 haa with rfl | haa
      · rw [ha.table.inst]; rfl
      · exact ha.table.keys a haa
    · exact h.keys l' h1 p n h2 a haa

theorem added_specNodes {layers layers' : List Comp.LayerNodes} {calls : List Call} (h : Added layers calls layers')
    (hs : SpecNodes layers) (hno : ∀ l ∈ layers, ∀ p n, (p, n) ∈ l → get? "_instance".toList n = some .none) :
    SpecNodes layers' ∧ ∀ l ∈ layers', ∀ p n, (p, n) ∈ l → get? "_instance".toList n = some .none := by
  induction h with
  | done => exact ⟨hs, hno⟩
  | more ha _ ih =>
    refine ih (specNodes_put hs ha) fun l hl p n hn => ?_
    rcases mem_node_putSpec hs.ok hl hn with ⟨-, rfl⟩ | ⟨l', h1, h2⟩
    · exact ha.table.inst
    · exact hno l' h1 p n h2

theorem settled_adds (is : Str → Str → Bool) {layers layers' : List Comp.LayerNodes} {calls : List Call}
    (h : Added layers calls layers') : ∀ {S : St} {specs links : Nat → List Nat}, Settled layers S specs links →
      ∃ S' specs' links', adds is S calls = some S' ∧ Settled layers' S' specs' links' := by
  induction h with
  | done => intro S specs links hs; exact ⟨S, specs, links, rfl, hs⟩
  | more ha _ ih =>
    intro S specs links hs
    obtain ⟨S1, specs1, links1, h1, h2⟩ := settled_add is hs ha
    obtain ⟨S', specs', links', h3, h4⟩ := ih h2
    refine ⟨S', specs', links', ?_, h4⟩
    unfold adds at h3 ⊢
    rw [List.foldlM_cons, h1]
    exact h3

/-! ## C111 -/

/-- C111: after any history of added specs, a composed stage without instances has the attributes of the user which the
layers as they are now give, and it has a composite node exactly for the paths in some layer.  `_partial`: as `Addable`
says, a path new in the stage needs to have nothing below it, and a spec of a known path a weaker spec there or a node
above. -/
theorem C111_history_partial (is : Str → Str → Bool) {layers layers' : List Comp.LayerNodes} {calls : List Call}
    (hs : SpecNodes layers) (hno : ∀ l ∈ layers, ∀ p n, (p, n) ∈ l → get? "_instance".toList n = some .none)
    {order : List (Str × Nat)} (ho : order.Perm (classesOf layers).2) (h : Added layers calls layers') :
    ∃ g' layer addr links, postProxy (classesOf layers).2 order (classesOf layers).1 = some g' ∧
      Settled layers ⟨g', (classesOf layers).2, layer, addr⟩ (classesOf layers).1.bases links ∧
      ∃ S', adds is ⟨g', (classesOf layers).2, layer, addr⟩ calls = some S' ∧
        (∀ p, (get? p S'.nodes).isSome ↔ stack layers' p ≠ []) ∧
        ∀ ns c k b, Names ns → UserName b k → get? (render ns) S'.nodes = some c →
          S'.g.attr? c k = layered layers' ns k := by
  obtain ⟨g', layer, addr, links, h1, h2⟩ := composed_settled hs hno ho
  obtain ⟨S', specs', links', h3, h4⟩ := settled_adds is h h2
  refine ⟨g', layer, addr, links, h1, h2, S', h3, fun p => ?_, fun ns c k b hN hk hc => settled_value h4 hN hc hk⟩
  rw [← Option.ne_none_iff_isSome, Ne, h4.free]

/-- C111: the same values as composing the layers anew, in any order of the nodes. -/
theorem C111_recomposed_partial (is : Str → Str → Bool) {layers layers' : List Comp.LayerNodes} {calls : List Call}
    (hs : SpecNodes layers) (hno : ∀ l ∈ layers, ∀ p n, (p, n) ∈ l → get? "_instance".toList n = some .none)
    (h : Added layers calls layers') {S : St} {specs links : Nat → List Nat} (hS : Settled layers S specs links)
    {order : List (Str × Nat)} (ho : order.Perm (classesOf layers').2) :
    ∃ S' g', adds is S calls = some S' ∧ postProxy (classesOf layers').2 order (classesOf layers').1 = some g' ∧
      ∀ ns, Names ns →
        ((get? (render ns) S'.nodes).isSome ↔ (get? (render ns) (classesOf layers').2).isSome) ∧
        ∀ c d k b, UserName b k → get? (render ns) S'.nodes = some c → get? (render ns) (classesOf layers').2 = some d →
          S'.g.attr? c k = g'.attr? d k := by
  obtain ⟨S', specs', links', h3, h4⟩ := settled_adds is h hS
  obtain ⟨hs', hno'⟩ := added_specNodes h hs hno
  obtain ⟨g', h5, h6⟩ := C76_layers hs' hno' ho
  obtain ⟨-, -, -, hkeys⟩ := classesOf_spec hs'
  refine ⟨S', g', h3, h5, fun ns hN => ⟨?_, fun c d k b hk hc hd => ?_⟩⟩
  · rw [← Option.ne_none_iff_isSome, ← Option.ne_none_iff_isSome, Ne, Ne, h4.free, hkeys]
  · rw [settled_value h4 hN hc hk, h6 ns d k b hN hk hd]

/-- C111: a new composite node changes no attribute of another node but the child order of its parent; even when other
nodes are below it. -/
theorem C111_others (is : Str → Str → Bool) {layers : List Comp.LayerNodes} {S : St} {specs links : Nat → List Nat}
    (h : Settled layers S specs links) {ns : List Str} (hN : Names ns) (hf : stack layers (render ns) = [])
    (i : Nat) (t : Dict Str Val) :
    ∃ S', add is S i (parentText ns) (nameText ns) t = some S' ∧
      ∀ p c, get? p S.nodes = some c → get? p S'.nodes = some c ∧
        ∀ k, k ≠ "_child_order".toList → S'.g.attr? c k = S.g.attr? c k := by
  have hfree : get? (render ns) S.nodes = none := (h.free _).2 hf
  obtain ⟨S', h1, h2, h3, h4, h5, -, -, -, -, h10, -⟩ := add_free is h hN hfree i t
  refine ⟨S', h1, fun p c hc => ⟨?_, fun k hk => ?_⟩⟩
  · rw [h2, get?_set, if_neg]
    · exact hc
    · rintro rfl; rw [hfree] at hc; cases hc
  · have hcm := mem_of_get? hc
    have hclosed := Laid.closed h.laid
    have hlt := (h.laid.comp _ c hcm).2.1
    obtain ⟨ms, hM, rfl⟩ := h.path p c hcm
    obtain ⟨l, hl, -⟩ := attr_lineage h.laid h.link [] (ms.length + 1) ms c (by omega) hM hcm
    have hl' := Lin.extend hclosed h5 hlt hl
    unfold Classes.attr?
    rw [(Laid.mro_iff h.laid hlt).2 hl, (Laid.mro_iff h3 (by omega)).2 hl', Option.bind_some, Option.bind_some]
    have : ∀ L : List Nat, (∀ d ∈ L, d < S.g.size) →
        L.findSome? (fun d => get? k (S'.g.own d)) = L.findSome? (fun d => get? k (S.g.own d)) := by
      intro L
      induction L with
      | nil => intro _; rfl
      | cons d L ih =>
        intro hd
        rw [List.findSome?_cons, List.findSome?_cons, h10 d (hd d List.mem_cons_self) k hk,
          ih fun e he => hd e (List.mem_cons_of_mem _ he)]
    exact this l (Lin.below hclosed hl hlt)

/-- C111, where it fails: a node below a path new in the stage does not get the attributes of the node added there; it
keeps those it had, although the layers now give it others. -/
theorem C111_gap_violation (is : Str → Str → Bool) {layers : List Comp.LayerNodes} {S : St} {specs links : Nat → List Nat}
    (h : Settled layers S specs links) {ns : List Str} (hN : Names ns) (hf : stack layers (render ns) = [])
    {i : Nat} {l : Comp.LayerNodes} (hi : layers[i]? = some l) (t : Dict Str Val) {m : Str} {ms : List Str} (hM : Names (ns ++ m :: ms))
    {c : Nat} (hc : get? (render (ns ++ m :: ms)) S.nodes = some c) {b : List Str} {k : Str} (hk : UserName b k)
    {v : Val} (hv : get? k t = some v)
    (hfar : ∀ q ∈ lineage (ns ++ m :: ms), ns.length < q.length → (stack layers (render q)).findSome? (get? k) = none)
    (hold : layered layers ns k ≠ some v) :
    ∃ S', add is S i (parentText ns) (nameText ns) t = some S' ∧ get? (render (ns ++ m :: ms)) S'.nodes = some c ∧
      S'.g.attr? c k = layered layers (ns ++ m :: ms) k ∧
      layered (putSpec layers i (render ns) t) (ns ++ m :: ms) k = some v ∧ S'.g.attr? c k ≠ some v := by
  obtain ⟨S', h1, h2⟩ := C111_others is h hN hf i t
  obtain ⟨h3, h4⟩ := h2 _ c hc
  have h5 : S'.g.attr? c k = layered layers (ns ++ m :: ms) k := by
    rw [h4 k (child_order_internal hk)]; exact settled_value h hM hc hk
  have hg : get? (render ns) l = none := by
    cases hg : get? (render ns) l with
    | none => rfl
    | some n =>
      have : n ∈ stack layers (render ns) := List.mem_filterMap.2 ⟨l, List.mem_of_getElem? hi, hg⟩
      rw [hf] at this; exact nomatch this
  -- going up the lineage to the new node
  have climb : ∀ (L : List Comp.LayerNodes), ∀ r : List Str,
      (∀ q ∈ lineage (ns ++ r), ns.length < q.length → (stack L (render q)).findSome? (get? k) = none) →
      layered L (ns ++ r) k = layered L ns k := by
    intro L r
    refine Legacy.snocInduct (P := fun r =>
      (∀ q ∈ lineage (ns ++ r), ns.length < q.length → (stack L (render q)).findSome? (get? k) = none) →
      layered L (ns ++ r) k = layered L ns k) ?_ ?_ r
    · intro _; rw [List.append_nil]
    · intro r x ih hr
      rw [← List.append_assoc] at hr ⊢
      unfold layered at ih ⊢
      rw [lineage_snoc] at hr ⊢
      rw [List.findSome?_cons, hr _ List.mem_cons_self (by simp)]
      exact ih fun q hq => hr q (List.mem_cons_of_mem _ hq)
  refine ⟨S', h1, h3, h5, ?_, ?_⟩
  · rw [climb _ (m :: ms)]
    · obtain ⟨r, hr⟩ := lineage_head ns
      unfold layered
      have e : stack (putSpec layers i (render ns) t) (render ns) = [t] := by
        rw [← stackFrom_stack _ _ 0, stackFrom_same t layers 0 i l hi hg]
        have : stackFrom 0 layers (render ns) = [] := by
          have := stackFrom_stack layers (render ns) 0
          rw [hf] at this
          exact List.map_eq_nil_iff.1 this
        rw [this]; simp
      rw [hr, List.findSome?_cons, e]
      simp [hv]
    · intro q hq hlen
      rw [putSpec_stack_other]
      · exact hfar q hq hlen
      · intro e
        have hq' : Names q := fun x hx => hM x ((mem_lineage.1 hq).subset hx)
        rw [Path.render_inj hq' hN e] at hlen
        omega
  · rw [h5, climb layers (m :: ms) hfar]
    exact hold

/-- The own table of a new node after `update_inherited_attrs`. -/
theorem add_own (is : Str → Str → Bool) {layers : List Comp.LayerNodes} {S : St} {specs links : Nat → List Nat}
    (h : Settled layers S specs links) {ns : List Str} (hN : Names ns) (hf : stack layers (render ns) = [])
    (i : Nat) (t : Dict Str Val) {a : Str} (ha : a ∈ ["_enabled", "_comment", "_code"].map String.toList)
    {v : Val} (hv : get? a t = some v) :
    ∃ S', add is S i (parentText ns) (nameText ns) t = some S' ∧ get? (render ns) S'.nodes = some S.g.size ∧
      S'.g.attr S.g.size a =
        if v.hasOpinion then v
        else match nearestAbove S.nodes ns with
          | none => noOpinion a
          | some b =>
            if get? (render ns.dropLast) S.nodes = some b then noOpinion a
            else if (S.g.attr b a).hasOpinion then S.g.attr b a else noOpinion a := by
  have hfree : get? (render ns) S.nodes = none := (h.free _).2 hf
  have hco : a ≠ "_child_order".toList := by
    rintro rfl; exact absurd ha (by decide +kernel)
  obtain ⟨S', h1, h2, h3, h4, h5, h6, h7, h8, h9, h10, h11, -, S2, rfl, h12⟩ := add_free is h hN hfree i t
  obtain ⟨S3, e1, ho⟩ := C111_others is h hN hf i t
  rw [h1] at e1
  obtain rfl := Option.some.inj e1
  have hmem : (render ns, S.g.size) ∈ (updateNode is S2 S.g.size).nodes := mem_of_get? (by rw [h2, get?_set, if_pos rfl])
  refine ⟨_, h1, by rw [h2, get?_set, if_pos rfl], ?_⟩
  obtain ⟨u1, u2, u3, u4, u5, u6, u7⟩ := updateNode_spec is S2 S.g.size
  have hbases := (h3.comp _ _ hmem).2.2
  simp only [if_true] at hbases
  -- the order of the new node
  have hlinNew : ∃ m, Lin (updateNode is S2 S.g.size).g S.g.size (S.g.size :: ([S.g.size + 1] ++ m)) := by
    cases hnb : nearestAbove S.nodes ns with
    | none =>
      refine ⟨[0], ?_⟩
      have := Laid.lin_none h3 hmem (by simp only [if_true, hnb]; rfl)
      simpa using this
    | some b =>
      obtain ⟨q, hq, hqn, hqb, -⟩ := nearestAbove_mem hN hnb
      have hblt := (h.laid.comp _ b hqb).2.1
      obtain ⟨lb, hlb, -⟩ := attr_lineage h.laid h.link [] (q.length + 1) q b (by omega) hq hqb
      have hclosed := Laid.closed h.laid
      refine ⟨lb, ?_⟩
      have := Laid.lin_one h3 hmem (b := b) (lb := lb) (by simp only [if_true, hnb]; rfl) (Lin.extend hclosed h5 hblt hlb)
        (fun hh => by have := Lin.below hclosed hlb hblt _ hh; omega)
      simpa using this
  obtain ⟨m, hlin⟩ := hlinNew
  have hattr : (updateNode is S2 S.g.size).g.attr S.g.size a =
      (get? a ((updateNode is S2 S.g.size).g.own S.g.size)).getD v := by
    unfold Classes.attr Classes.attr?
    rw [(Laid.mro_iff h3 (by omega)).2 hlin, Option.bind_some, List.findSome?_cons]
    cases get? a ((updateNode is S2 S.g.size).g.own S.g.size) with
    | some w => rfl
    | none =>
      simp only [List.cons_append, List.nil_append]
      rw [List.findSome?_cons, h8, hv]
      rfl
  rw [hattr]
  -- what is read of the bases
  have hgb : S2.g.bases = (updateNode is S2 S.g.size).g.bases := u5.symm
  have hlinS : Lin S2.g (S.g.size + 1) [S.g.size + 1, 0] := by
    have := (h3.spec _ _ hmem (S.g.size + 1) (by simp)).2.2.1
    exact Lin.congr hgb (Laid.lin_other h3 this)
  have hL2 : Laid S2.g (updateNode is S2 S.g.size).nodes (fun d => if d = S.g.size then [S.g.size + 1] else specs d)
      (fun d => if d = S.g.size then (nearestAbove S.nodes ns).toList else links d) := Laid.congr h3 u4.symm hgb
  have hs2 : S2.g.size = S.g.size + 2 := u4.symm.trans h4
  have hspecTable : getAttr ((env is S2 S.g.size).table (S.g.size + 1)) a = v := by
    have e : get? a ((env is S2 S.g.size).table (S.g.size + 1)) = some (S2.g.attr (S.g.size + 1) a) := by
      have hall : a ∈ ALL := (by decide +kernel : ∀ x ∈ ["_enabled", "_comment", "_code"].map String.toList, x ∈ ALL) a ha
      exact get?_map_self hall
    rw [getAttr_of_get? e]
    unfold Classes.attr Classes.attr?
    rw [(Laid.mro_iff hL2 (by omega)).2 hlinS, Option.bind_some, List.findSome?_cons, ← u6 _ (by omega), h8, hv]
    rfl
  have harcS : (env is S2 S.g.size).arc (S.g.size + 1) = some .reference := by
    show Targeted.getArc is false (S2.addr S.g.size).1 (S2.addr S.g.size).2 [] (S2.addr (S.g.size + 1)).1 (S2.addr (S.g.size + 1)).2 = _
    rw [← u3, h7]
    simp only [true_or, or_true, if_true]
    exact (C98_reference is false [] ns ns hN hN).2 rfl
  have hown : (updateNode is S2 S.g.size).g.own S.g.size =
      (Targeted.update (env is S2 S.g.size) false [.parent, .inst]
        ⟨S2.g.own S.g.size, [S.g.size + 1] ++ (nearestAbove S.nodes ns).toList⟩).own := by
    simp only [updateNode, setOwn, if_true]
    rw [hgb, hbases]
  have hlinkArc : ∀ b q, nearestAbove S.nodes ns = some b → Names q → q.length < ns.length → (render q, b) ∈ S.nodes →
      (env is S2 S.g.size).arc b = if q = ns.dropLast then some .parent else some .inst := by
    intro b q hnb hq hqn hqb
    have hblt := (h.laid.comp _ b hqb).2.1
    show Targeted.getArc is false (S2.addr S.g.size).1 (S2.addr S.g.size).2 [] (S2.addr b).1 (S2.addr b).2 = _
    rw [← u3, h7]
    simp only [true_or, if_true]
    rw [if_neg (by omega), h.addr q b hq hqb b List.mem_cons_self]
    have hne : ns ≠ [] := by rintro rfl; simp at hqn
    split
    · rename_i e
      exact (C98_parent is false [] ns q hN hq).2 ⟨hne, e⟩
    · rename_i e
      exact C98_implied_violation is false ns q hN hq (by rintro rfl; omega) e
  have hcomp : ∀ b ∈ (nearestAbove S.nodes ns).toList, (env is S2 S.g.size).arc b ≠ some .reference := by
    intro b hb
    cases hnb : nearestAbove S.nodes ns with
    | none => rw [hnb] at hb; exact nomatch hb
    | some b' =>
      rw [hnb] at hb
      obtain rfl : b = b' := by simpa using hb
      obtain ⟨q, hq, hqn, hqb, -⟩ := nearestAbove_mem hN hnb
      rw [hlinkArc b q hnb hq hqn hqb]
      split <;> simp
  rw [hown, C97_instances (env is S2 S.g.size) false [.parent, .inst] _ [S.g.size + 1] _
    (fun b hb => by rw [List.mem_singleton.1 hb]; exact harcS) hcomp (by simp) (by simp) a]
  have hcond : (a ∈ ["_enabled", "_comment", "_code"].map String.toList ∧ ∀ b ∈ [S.g.size + 1],
      (getAttr ((env is S2 S.g.size).table b) a).hasOpinion = false) ↔ v.hasOpinion = false := by
    constructor
    · rintro ⟨-, h⟩
      rw [← hspecTable]; exact h _ (by simp)
    · intro hop
      refine ⟨ha, fun b hb => ?_⟩
      rw [List.mem_singleton.1 hb, hspecTable]; exact hop
  by_cases hop : v.hasOpinion = true
  · rw [if_neg (fun hh => by rw [hcond.1 hh] at hop; cases hop), if_pos hop, h12 a hco]
    rfl
  · rw [if_pos (hcond.2 (Bool.eq_false_iff.2 hop)), if_neg hop, Option.getD_some]
    cases hnb : nearestAbove S.nodes ns with
    | none => rfl
    | some b =>
      simp only
      obtain ⟨q, hq, hqn, hqb, -⟩ := nearestAbove_mem hN hnb
      have harc := hlinkArc b q hnb hq hqn hqb
      have hNd : Names ns.dropLast := fun x hx => hN x (List.dropLast_subset _ hx)
      have hiff : get? (render ns.dropLast) S.nodes = some b ↔ q = ns.dropLast := by
        constructor
        · intro hg
          exact Path.render_inj hq hNd (h.laid.inj _ _ _ hqb (mem_of_get? hg))
        · rintro rfl; exact get?_of_mem h.laid.ok hqb
      have htb : getAttr ((env is S2 S.g.size).table b) a = S.g.attr b a := by
        have hall : a ∈ ALL := (by decide +kernel : ∀ x ∈ ["_enabled", "_comment", "_code"].map String.toList, x ∈ ALL) a ha
        have e : get? a ((env is S2 S.g.size).table b) = some (S2.g.attr b a) := get?_map_self hall
        rw [getAttr_of_get? e]
        have hblt := (h.laid.comp _ b hqb).2.1
        have := (ho _ b (get?_of_mem h.laid.ok hqb)).2 a hco
        unfold Classes.attr
        rw [← this]
        congr 1
        obtain ⟨lb, hlb, -⟩ := attr_lineage h.laid h.link [] (q.length + 1) q b (by omega) hq hqb
        have hclosed := Laid.closed h.laid
        have hl' := Lin.extend hclosed h5 hblt hlb
        unfold Classes.attr?
        rw [(Laid.mro_iff h3 (by omega)).2 hl', (Laid.mro_iff hL2 (by omega)).2 (Lin.congr hgb hl'), Option.bind_some, Option.bind_some]
        have : ∀ L : List Nat, (∀ d ∈ L, d < S.g.size) →
            L.findSome? (fun d => get? a (S2.g.own d)) = L.findSome? (fun d => get? a ((updateNode is S2 S.g.size).g.own d)) := by
          intro L
          induction L with
          | nil => intro _; rfl
          | cons d L ih =>
            intro hd
            have := hd d List.mem_cons_self
            rw [List.findSome?_cons, List.findSome?_cons, u6 d (by omega), ih fun e he => hd e (List.mem_cons_of_mem _ he)]
        exact this lb (Lin.below hclosed hlb hblt)
      unfold givenBy
      by_cases hg : get? (render ns.dropLast) S.nodes = some b
      · rw [if_pos hg]
        have : ¬ Gives (env is S2 S.g.size) a b := by
          rintro ⟨⟨x, hx, hax⟩, -⟩
          rw [harc, if_pos (hiff.1 hg)] at hx
          cases hx
          exact nomatch hax
        simp [this]
      · rw [if_neg hg]
        by_cases hb : (S.g.attr b a).hasOpinion = true
        · have : Gives (env is S2 S.g.size) a b := by
            refine ⟨⟨.inst, ?_, ha⟩, by rw [htb]; exact hb⟩
            rw [harc, if_neg (fun e => hg (hiff.2 e))]
          rw [if_pos hb]
          simp [this, htb]
        · have : ¬ Gives (env is S2 S.g.size) a b := by
            rintro ⟨-, hh⟩
            rw [htb] at hh; exact hb hh
          rw [if_neg hb]
          simp [this]

/-- C111: a node added below an existing node, or as the world, has its own enabled state, comment and code, or none. -/
theorem C111_settings_partial (is : Str → Str → Bool) {layers : List Comp.LayerNodes} {S : St} {specs links : Nat → List Nat}
    (h : Settled layers S specs links) {ns : List Str} (hN : Names ns) (hf : stack layers (render ns) = [])
    (hpar : ns = [] ∨ stack layers (render ns.dropLast) ≠ [])
    (i : Nat) (t : Dict Str Val) {a : Str} (ha : a ∈ ["_enabled", "_comment", "_code"].map String.toList)
    {v : Val} (hv : get? a t = some v) :
    ∃ S' c, add is S i (parentText ns) (nameText ns) t = some S' ∧ get? (render ns) S'.nodes = some c ∧
      S'.g.attr c a = if v.hasOpinion then v else noOpinion a := by
  obtain ⟨S', h1, h2, h3⟩ := add_own is h hN hf i t ha hv
  refine ⟨S', _, h1, h2, h3.trans ?_⟩
  by_cases hv' : v.hasOpinion = true
  · rw [if_pos hv', if_pos hv']
  · rw [if_neg hv', if_neg hv']
    rcases hpar with rfl | hpar
    · rfl
    · rcases Path.eq_nil_or_snoc ns with rfl | ⟨m, n, rfl⟩
      · rfl
      · rw [List.dropLast_concat] at hpar ⊢
        cases hg : get? (render m) S.nodes with
        | none => exact absurd ((h.free _).1 hg) hpar
        | some b =>
          have : nearestAbove S.nodes (m ++ [n]) = some b := by
            rw [nearestAbove_snoc]
            obtain ⟨r, hr⟩ := lineage_head m
            rw [hr, List.findSome?_cons, hg]
          rw [this]
          simp

/-- C111, where it fails: below a path without a node, the nearest node above counts as an instance source, so a node
added there gets its enabled state, comment and code where the spec has none. -/
theorem C111_settings_violation (is : Str → Str → Bool) {layers : List Comp.LayerNodes} {S : St} {specs links : Nat → List Nat}
    (h : Settled layers S specs links) {ns : List Str} (hN : Names ns) (hf : stack layers (render ns) = [])
    (hpar : stack layers (render ns.dropLast) = []) {b : Nat} (hb : nearestAbove S.nodes ns = some b)
    (i : Nat) (t : Dict Str Val) {a : Str} (ha : a ∈ ["_enabled", "_comment", "_code"].map String.toList)
    {v : Val} (hv : get? a t = some v) (hno : v.hasOpinion = false) (ho : (S.g.attr b a).hasOpinion = true) :
    ∃ S' c, add is S i (parentText ns) (nameText ns) t = some S' ∧ get? (render ns) S'.nodes = some c ∧
      S'.g.attr c a = S.g.attr b a := by
  obtain ⟨S', h1, h2, h3⟩ := add_own is h hN hf i t ha hv
  refine ⟨S', _, h1, h2, h3.trans ?_⟩
  rw [hno, if_neg (by simp), hb]
  simp only
  rw [if_neg (by rw [(h.free _).2 hpar]; simp), if_pos ho]

/-! ### Stages made node by node -/


/-- The composite layer of a stage without a node. -/
def emptyStage : St := ⟨⟨1, fun _ => [], fun _ => []⟩, [], fun _ => none, fun _ => ([], [])⟩

theorem settled_empty {layers : List Comp.LayerNodes} (h : ∀ l ∈ layers, l = []) :
    Settled layers emptyStage (fun _ => []) (fun _ => []) := by
  have hst : ∀ p, stack layers p = [] := by
    intro p
    unfold stack
    rw [List.filterMap_eq_nil_iff]
    intro l hl
    rw [h l hl]; rfl
  have no : ∀ (p : Str) (c : Nat), (p, c) ∈ emptyStage.nodes → False := fun _ _ h => nomatch h
  refine ⟨⟨by simp [emptyStage, Dict.Ok, keys], fun p q c hp => (no p c hp).elim, rfl, by decide, fun p c hp => (no p c hp).elim,
    fun p c hp => (no p c hp).elim, fun p c hp => (no p c hp).elim, fun p c hp => (no p c hp).elim,
    fun p c hp => (no p c hp).elim, fun p c q d hp => (no p c hp).elim, ?_⟩,
    fun p c hp => (no p c hp).elim, fun ns c _ hp => (no _ c hp).elim, fun p => ⟨fun _ => hst p, fun _ => rfl⟩,
    fun p c hp => (no p c hp).elim, fun ns c _ hp => (no _ c hp).elim, fun p c hp => (no p c hp).elim, fun _ _ _ => rfl⟩
  intro s hs h0
  exact absurd (show s < 1 from hs) (by omega)

theorem specNodes_empty {layers : List Comp.LayerNodes} (h : ∀ l ∈ layers, l = []) : SpecNodes layers where
  ok := by intro l hl; rw [h l hl]; simp [Dict.Ok, keys]
  path := by intro l hl p n hm; rw [h l hl] at hm; exact nomatch hm
  parent := by intro l hl ns n _ hm; rw [h l hl] at hm; exact nomatch hm
  keys := by intro l hl p n hm; rw [h l hl] at hm; exact nomatch hm

/-- C111: a stage made from nothing, node by node, is the stage which a composition of its layers gives. -/
theorem C111_made_partial (is : Str → Str → Bool) {layers layers' : List Comp.LayerNodes} {calls : List Call}
    (hl : ∀ l ∈ layers, l = []) (h : Added layers calls layers') {order : List (Str × Nat)}
    (ho : order.Perm (classesOf layers').2) :
    ∃ S' g', adds is emptyStage calls = some S' ∧ postProxy (classesOf layers').2 order (classesOf layers').1 = some g' ∧
      ∀ ns, Names ns →
        ((get? (render ns) S'.nodes).isSome ↔ (get? (render ns) (classesOf layers').2).isSome) ∧
        ∀ c d k b, UserName b k → get? (render ns) S'.nodes = some c → get? (render ns) (classesOf layers').2 = some d →
          S'.g.attr? c k = g'.attr? d k :=
  C111_recomposed_partial is (specNodes_empty hl) (fun l h p n hm => by rw [hl l h] at hm; exact nomatch hm) h
    (settled_empty hl) ho

/-- What has to be checked of a call, with the namespaces of the layers at hand. -/
theorem addable_of {layers : List Comp.LayerNodes} {ns : List Str} {c : Call} (qs : List (List Str)) (hq : ∀ q ∈ qs, Names q)
    (hk : ∀ l ∈ layers, ∀ x ∈ keys l, x ∈ qs.map render) (hN : Names ns) (hp : c.par = parentText ns) (hn : c.name = nameText ns)
    (hl : ((layers[c.layer]?).map (fun l => get? (render ns) l |>.isNone)) = some true) (ht : SpecTable ns c.table)
    (hleaf : stack layers (render ns) = [] → ∀ q ∈ qs, ¬ (ns <+: q ∧ ns ≠ q))
    (hplace : stack layers (render ns) ≠ [] →
      (∃ j l, c.layer < j ∧ layers[j]? = some l ∧ (get? (render ns) l).isSome) ∨
      ∃ q m ms, ns = q ++ m :: ms ∧ stack layers (render q) ≠ []) : Addable layers ns c where
  names := hN
  par := hp
  name := hn
  layer := by
    cases e : layers[c.layer]? with
    | none => rw [e] at hl; cases hl
    | some l =>
      rw [e] at hl
      exact ⟨l, rfl, Option.isNone_iff_eq_none.1 (by simpa using hl)⟩
  table := ht
  leaf := by
    intro h0 m ms hM
    unfold stack
    rw [List.filterMap_eq_nil_iff]
    intro l hll
    cases e : get? (render (ns ++ m :: ms)) l with
    | none => rfl
    | some n =>
      obtain ⟨q, hq1, hq2⟩ := List.mem_map.1 (hk l hll _ (List.mem_map.2 ⟨_, mem_of_get? e, rfl⟩))
      obtain rfl := Path.render_inj hM (hq q hq1) hq2.symm
      exact absurd ⟨List.prefix_append _ _, fun h => by have := congrArg List.length h; simp at this⟩ (hleaf h0 _ hq1)
  place := hplace

theorem exSpec_table (ns : List Str) (code : Val) (more : Dict Str Val) : SpecTable ns (exInheritSpec ns .none code more) := by
  refine ⟨rfl, rfl, ?_⟩
  intro a ha
  simp only [List.map_cons, List.map_nil, List.mem_cons, List.not_mem_nil, or_false] at ha
  rcases ha with rfl | rfl | rfl <;> rfl

/-- A call which adds a spec with one attribute of the user. -/
def exCall (i : Nat) (ns : List Str) (code : Val) (more : Dict Str Val) : Call :=
  ⟨i, parentText ns, nameText ns, exInheritSpec ns .none code more⟩

/-- The world and `/A`, then `/A/x` in the weak and in the strong layer, then `/A` in the strong layer. -/
def exCalls : List Call :=
  [exCall 1 [] (.list [.str "go".toList]) [(['q'], .str "world".toList)],
   exCall 1 [['A']] .none [(['k'], .str "A".toList)],
   exCall 1 [['A'], ['x']] .none [(['m'], .str "weak".toList), (['n'], .str "weak".toList)],
   exCall 0 [['A'], ['x']] .none [(['m'], .str "strong".toList)],
   exCall 0 [['A']] .none [(['k'], .str "AA".toList)]]

/-- Text attributes of a node after the calls. -/
def exAdds (calls : List Call) (p : Str) (ks : List Str) : Option (List (Option Str)) :=
  match adds (fun _ _ => false) emptyStage calls with
  | none => none
  | some S => (get? p S.nodes).map (fun c => ks.map (fun k => match S.g.attr? c k with | some (.str s) => some s | _ => none))

example : exAdds exCalls "/A/x".toList [['m'], ['n'], ['k'], ['q'], ['z']] =
    some [some "strong".toList, some "weak".toList, some "AA".toList, some "world".toList, none] := by decide +kernel

theorem exCalls_added : ∃ layers', Added [[], []] exCalls layers' := by
  have names : ∀ q ∈ [[], [['A']], [['A'], ['x']]], Names q := by
    intro q h
    simp only [List.mem_cons, List.not_mem_nil, or_false] at h
    rcases h with rfl | rfl | rfl <;> (unfold Names IsName; decide +kernel)
  refine ⟨_, .more (ns := []) ?_ (.more (ns := [['A']]) ?_ (.more (ns := [['A'], ['x']]) ?_ (.more (ns := [['A'], ['x']]) ?_
    (.more (ns := [['A']]) ?_ .done))))⟩
  · exact addable_of [] (fun _ h => nomatch h) (by decide +kernel) (names _ (by simp)) rfl rfl rfl (exSpec_table _ _ _)
      (fun _ _ h => nomatch h) (fun h => absurd rfl h)
  · exact addable_of [[], [['A']]] (fun q h => names q (List.mem_append_left [[['A'], ['x']]] h)) (by decide +kernel) (names _ (by simp)) rfl rfl rfl (exSpec_table _ _ _)
      (fun _ => by decide +kernel) (fun _ => .inr ⟨[], ['A'], [], rfl, by decide +kernel⟩)
  · exact addable_of _ names (by decide +kernel) (names _ (by simp)) rfl rfl rfl (exSpec_table _ _ _)
      (fun _ => by decide +kernel) (fun _ => .inr ⟨[], ['A'], [['x']], rfl, by decide +kernel⟩)
  · exact addable_of _ names (by decide +kernel) (names _ (by simp)) rfl rfl rfl (exSpec_table _ _ _)
      (fun _ => by decide +kernel) (fun _ => .inl ⟨1, _, by decide, rfl, by decide +kernel⟩)
  · exact addable_of _ names (by decide +kernel) (names _ (by simp)) rfl rfl rfl (exSpec_table _ _ _)
      (fun h => absurd h (by decide +kernel)) (fun _ => .inl ⟨1, _, by decide, rfl, by decide +kernel⟩)

/-- The paths of the layers of such a stage. -/
example : ∃ S' , adds (fun _ _ => false) emptyStage exCalls = some S' ∧ keys S'.nodes = ["/", "/A", "/A/x"].map String.toList :=
  ⟨_, rfl, by decide +kernel⟩

/-- The gap (C111): `/A` is added above `/A/x`, whose attributes stay those of the world. -/
example : exAdds [exCall 0 [] .none [(['q'], .str "world".toList)], exCall 0 [['A'], ['x']] .none [],
    exCall 0 [['A']] .none [(['q'], .str "A".toList)]] "/A/x".toList [['q']] = some [some "world".toList] ∧
    exInherit [[(render [['A']], exInheritSpec [['A']] .none .none [(['q'], .str "A".toList)]),
      (render [['A'], ['x']], exInheritSpec [['A'], ['x']] .none .none []),
      (render [], exInheritSpec [] .none .none [(['q'], .str "world".toList)])]] "/A/x".toList [['q']] = some [some "A".toList] := by
  decide +kernel

/-- The code of a node after the calls. -/
def exCode (calls : List Call) (p : Str) : Option (Option (List Str)) :=
  match adds (fun _ _ => false) emptyStage calls with
  | none => none
  | some S => (get? p S.nodes).map (fun c => names (S.g.attr c A_CODE))

/-- The implied parent (C111): `/A/x` gets the code of the world if there is no `/A`, and none if there is. -/
example : exCode [exCall 0 [] (.list [.str "go".toList]) [], exCall 0 [['A'], ['x']] .none []] "/A/x".toList =
      some (some ["go".toList]) ∧
    exCode [exCall 0 [] (.list [.str "go".toList]) [], exCall 0 [['A']] .none [], exCall 0 [['A'], ['x']] .none []] "/A/x".toList =
      some (some []) := by
  decide +kernel

end Nxt.Props
