import Verif.Lemmas.Targeted
import Verif.Props.Path
/-!
# Properties C96–C99: targeted composition
-/
namespace Nxt.Props
open Dict NodeData Targeted Spec

/-! ## C98: the arc of a base -/

theorem join_text (ns : List Str) (h : Names ns) : Path.joinNodePath (parentText ns) (nameText ns) = render ns := by
  unfold parentText nameText
  by_cases h0 : ns = []
  · subst h0; rfl
  · obtain ⟨m, k, rfl⟩ : ∃ m k, ns = m ++ [k] := ⟨ns.dropLast, ns.getLast h0, (List.dropLast_concat_getLast h0).symm⟩
    rw [if_neg h0, List.dropLast_concat, List.getLast?_concat, Option.getD_some]
    exact (C09_parent_name_join m k h).2.2.1

theorem check_text (ms : List Str) (h : Names ms) :
    (if nameText ms = Path.WORLD then Path.WORLD
      else Path.joinNodePath (if parentText ms = [] then Path.WORLD else parentText ms) (nameText ms)) = render ms := by
  by_cases h0 : ms = []
  · subst h0; rfl
  · obtain ⟨m, k, rfl⟩ : ∃ m k, ms = m ++ [k] := ⟨ms.dropLast, ms.getLast h0, (List.dropLast_concat_getLast h0).symm⟩
    have hk : IsName k := h k (by simp)
    have e1 : nameText (m ++ [k]) = k := by unfold nameText; rw [List.getLast?_concat, Option.getD_some]
    have e2 : parentText (m ++ [k]) = render m := by unfold parentText; rw [if_neg h0, List.dropLast_concat]
    rw [e1, e2, if_neg (by rintro rfl; exact hk.2.1 (by decide)), if_neg (by unfold render; split <;> simp [*, Path.slashed_eq_nil])]
    · exact (C09_parent_name_join m k h).2.2.1

/-- C98: the base has the reference arc exactly when it has the path of the node. -/
theorem C98_reference (is : Str → Str → Bool) (source : Bool) (inst : Str) (ns ms : List Str) (hn : Names ns) (hm : Names ms) :
    getArc is source (parentText ns) (nameText ns) inst (parentText ms) (nameText ms) = some .reference ↔ ms = ns := by
  unfold getArc
  simp only [join_text ns hn, check_text ms hm]
  by_cases h : ms = ns
  · subst h; simp
  · rw [if_neg (fun e => h (Path.render_inj hn hm e).symm)]
    simp only [h, iff_false]
    split
    · simp
    · split <;> simp

/-- C98: the base has the parent arc exactly when it is the parent. -/
theorem C98_parent (is : Str → Str → Bool) (source : Bool) (inst : Str) (ns ms : List Str) (hn : Names ns) (hm : Names ms) :
    getArc is source (parentText ns) (nameText ns) inst (parentText ms) (nameText ms) = some .parent ↔
      ns ≠ [] ∧ ms = ns.dropLast := by
  unfold getArc
  simp only [join_text ns hn, check_text ms hm]
  by_cases h0 : ns = []
  · subst h0
    have hp : ¬ (parentText [] = render ms ∧ Path.isAncestor (render []) (render ms) = true) := by
      rintro ⟨h, -⟩
      unfold parentText render at h
      rw [if_pos rfl] at h
      split at h
      · cases h
      · exact absurd (Path.slashed_eq_nil.1 h.symm) (by assumption)
    rw [if_neg hp]
    simp only [ne_eq, not_true_eq_false, false_and, iff_false]
    split
    · simp
    · split <;> simp
  · have hpt : parentText ns = render ns.dropLast := by unfold parentText; rw [if_neg h0]
    have hd : Names ns.dropLast := fun n h => hn n (List.dropLast_subset _ h)
    have hlen : ns.dropLast.length < ns.length := by
      have := List.length_pos_iff.2 h0
      rw [List.length_dropLast]; omega
    by_cases h : ms = ns.dropLast
    · subst h
      rw [if_neg (fun e => by have := congrArg List.length (Path.render_inj hn hm e); omega), if_pos]
      · simp [h0]
      · refine ⟨hpt, (C10_is_ancestor ns ns.dropLast hn hd).2 (.inr ⟨[ns.getLast h0], by simp, ?_⟩)⟩
        exact (List.dropLast_concat_getLast h0).symm
    · simp only [h, and_false, iff_false]
      split
      · simp
      · rw [if_neg (fun e => h (Path.render_inj hd hm (hpt ▸ e.1)).symm)]
        split <;> simp

/-- C98: a base at neither of these paths has the instance arc exactly when it is an instance source, has the very
text of the instance path, or stands below the instance path. -/
theorem C98_instance_partial (is : Str → Str → Bool) (source : Bool) (ns ms us : List Str) (hn : Names ns) (hm : Names ms)
    (hu : Names us) (h1 : ms ≠ ns) (h2 : ms ≠ ns.dropLast) :
    getArc is source (parentText ns) (nameText ns) (render us) (parentText ms) (nameText ms) = some .inst ↔
      source = true ∨ is (render us) (render ms) = true ∨ us = [] ∨ ∃ rest, rest ≠ [] ∧ ms = us ++ rest := by
  have a1 := C98_reference is source (render us) ns ms hn hm
  have a2 := C98_parent is source (render us) ns ms hn hm
  unfold getArc at a1 a2 ⊢
  simp only [join_text ns hn, check_text ms hm] at a1 a2 ⊢
  have n1 : ¬ (render ns = render ms) := by
    intro e; exact h1 (Path.render_inj hn hm e).symm
  have n2 : ¬ (parentText ns = render ms ∧ Path.isAncestor (render ns) (render ms) = true) := by
    intro e
    rw [if_neg n1, if_pos e] at a2
    exact h2 (a2.1 rfl).2
  rw [if_neg n1, if_neg n2, ← C10_is_ancestor ms us hm hu]
  split
  · rename_i h
    simp only [true_iff]
    rcases h with h | h | h
    · exact .inr (.inl h)
    · exact .inr (.inr h)
    · exact .inl h
  · rename_i h
    simp only [not_or] at h
    simp [h]

/-- C98, where it fails: a node without an instance path counts every other base as its instance source, also the
nearest node above when its parent is only implied. -/
theorem C98_implied_violation (is : Str → Str → Bool) (source : Bool) (ns ms : List Str) (hn : Names ns) (hm : Names ms)
    (h1 : ms ≠ ns) (h2 : ms ≠ ns.dropLast) :
    getArc is source (parentText ns) (nameText ns) [] (parentText ms) (nameText ms) = some .inst := by
  have a2 := C98_parent is source [] ns ms hn hm
  unfold getArc at a2 ⊢
  simp only [join_text ns hn, check_text ms hm] at a2 ⊢
  have n1 : ¬ (render ns = render ms) := by
    intro e; exact h1 (Path.render_inj hn hm e).symm
  have n2 : ¬ (parentText ns = render ms ∧ Path.isAncestor (render ns) (render ms) = true) := by
    intro e
    rw [if_neg n1, if_pos e] at a2
    exact h2 (a2.1 rfl).2
  have n3 : Path.isAncestor (render ms) [] = true := by
    unfold Path.isAncestor
    rw [if_neg (by decide), Py.startsWith_iff]
    unfold render
    cases ms with
    | nil => exact ⟨[], rfl⟩
    | cons m ms => rw [if_neg (by simp)]; exact ⟨m ++ slashed ms, rfl⟩
  rw [if_neg n1, if_neg n2, if_pos (.inr (.inl n3))]

/-- `/a/b/c` with the bases `/a/b/c`, `/a/b`, `/a`, `/x` and the instance path `/x`, or none. -/
example :
    let abc := ["a".toList, "b".toList, "c".toList]
    let arc (inst : Str) (source : Bool) (ms : List Str) :=
      getArc (fun _ _ => false) source (parentText abc) (nameText abc) inst (parentText ms) (nameText ms)
    arc "/x".toList false abc = some .reference ∧ arc "/x".toList false (abc.take 2) = some .parent ∧
    arc "/x".toList true ["x".toList] = some .inst ∧ arc "/x".toList false (abc.take 1) = none ∧
    arc [] false (abc.take 1) = some .inst ∧ arc [] false [] = some .inst := by decide +kernel

/-! ## C96: a spec put into a composite node -/

/-- C96: a new spec goes behind the specs of the layers up to its own and before those of weaker layers; the other
bases stay behind.  Every composed attribute gets the value and the source of the strongest opinion among the specs,
as in a full composition (C30); nothing else changes.  `_partial`: the node needs a spec of a weaker layer, or a base
which is a composite node and no proxy. -/
theorem C96_insert_partial (E : Env) (path : Str) (tgt spec : Nat) (specs links : List Nat) (own : Dict Str Val)
    (hb : Based E specs links) (hn : (specs ++ links).Nodup) (hs : spec ∉ specs ++ links) (hne : specs ≠ [])
    (hw : (∃ b ∈ specs, Weaker E tgt b) ∨ ∃ b ∈ links, E.proxy b = false) :
    let all := specs.filter (fun b => ¬ Weaker E tgt b) ++ spec :: specs.filter (fun b => Weaker E tgt b)
    ∃ c, insertSpec E path tgt spec ⟨own, specs ++ links⟩ = some c ∧ c.bases = all ++ links ∧
      (∀ a ∈ opinionAttrs, ∀ n, strongest (all.map E.table) a = some n →
        get? a c.own = some (getAttr n a) ∧ get? (a ++ "_source__nxt".toList) c.own = some (.src (sourceOf n) path)) ∧
      (∀ a ∈ opinionAttrs, strongest (all.map E.table) a = none →
        get? a c.own = get? a own ∧ get? (a ++ "_source__nxt".toList) c.own = get? (a ++ "_source__nxt".toList) own) ∧
      (∀ k, k ∉ opinionAttrs → (∀ a ∈ opinionAttrs, k ≠ a ++ "_source__nxt".toList) → get? k c.own = get? k own) := by
  intro all
  have hloop := insertLoop_based (E := E) tgt spec links hb.link hb.linkLayer [] specs (fun _ h => nomatch h) hb.spec
    hb.layer hb.sorted
  simp only [List.nil_append, List.length_nil, if_pos hw] at hloop
  have hsplit : specs.filter (fun b => ¬ Weaker E tgt b) ++ specs.filter (fun b => Weaker E tgt b) = specs := by
    have : ∀ l : List Nat, (∀ b ∈ l, ∃ y, E.layer b = some y) →
        l.Pairwise (fun a b => ∀ l m, E.layer a = some l → E.layer b = some m → l ≤ m) →
        l.filter (fun b => ¬ Weaker E tgt b) ++ l.filter (fun b => Weaker E tgt b) = l := by
      intro l
      induction l with
      | nil => intros; rfl
      | cons x xs ih =>
        intro hy hp
        have hp := List.pairwise_cons.1 hp
        have ih := ih (fun b hb => hy b (List.mem_cons_of_mem _ hb)) hp.2
        by_cases hx : Weaker E tgt x
        · have hall : ∀ b ∈ x :: xs, Weaker E tgt b := by
            intro b hb
            rcases List.mem_cons.1 hb with rfl | hb
            · exact hx
            · obtain ⟨y, e, hy'⟩ := hx
              obtain ⟨z, ez⟩ := hy b (List.mem_cons_of_mem _ hb)
              exact ⟨z, ez, Nat.lt_of_lt_of_le hy' (hp.1 b hb y z e ez)⟩
          rw [List.filter_eq_nil_iff.2 (fun b hb => by simp [hall b hb]), List.filter_eq_self.2 (fun b hb => by simp [hall b hb])]
          rfl
        · rw [List.filter_cons_of_pos (by simp [hx]), List.filter_cons_of_neg (by simp [hx]), List.cons_append, ih]
    exact this specs hb.layer hb.sorted
  refine ⟨_, by rw [insertSpec, hloop]; rfl, ?_, ?_, ?_, ?_⟩
  · have := newBases_insert (specs.filter (fun b => ¬ Weaker E tgt b)) (specs.filter (fun b => Weaker E tgt b)) links spec
      (by rw [hsplit]; exact hn) (by rw [hsplit]; exact hs) (by rw [hsplit]; exact hne)
    rw [hsplit] at this
    exact this
  · intro a ha n hst
    obtain ⟨o1, o2⟩ := (overload_bases E path all own a).1 ((Comp.mem_overload a).2 ha)
    rw [hst] at o1 o2
    exact ⟨o1, o2⟩
  · intro a ha hst
    obtain ⟨o1, o2⟩ := (overload_bases E path all own a).1 ((Comp.mem_overload a).2 ha)
    rw [hst] at o1 o2
    exact ⟨o1, o2⟩
  · intro k hk hk'
    exact (overload_bases E path all own k).2 (fun h => hk ((Comp.mem_overload k).1 h))
      (fun b hb => hk' b ((Comp.mem_overload b).1 hb))

/-- C96: over a proxy the new spec becomes the first base, before the spec of the proxy. -/
theorem C96_proxy (E : Env) (path : Str) (tgt spec p : Nat) (links : List Nat) (own : Dict Str Val)
    (hp : E.proxy p = true ∧ E.arc p = some .reference) (hl : ∀ b ∈ links, E.isComp b = true ∧ E.arc b ≠ some .reference)
    (hy : ∀ b ∈ links, E.proxy b = false → ∃ l, E.layer b = some l)
    (hn : (p :: links).Nodup) (hs : spec ∉ p :: links) (hw : ∃ b ∈ links, E.proxy b = false) :
    ∃ c, insertSpec E path tgt spec ⟨own, p :: links⟩ = some c ∧ c.bases = spec :: p :: links := by
  have hloop : insertLoop E tgt spec (p :: links) 0 (p :: links) = some [spec, p] := by
    rw [insertLoop, if_pos hp.1, insertLoop_links tgt spec _ 0 links (fun b hb => (hl b hb).1) hy, if_pos hw]
    have e : refs E (p :: links) = [p] := by
      have := refs_none (E := E) (l := links) (fun b hb => (hl b hb).2)
      unfold refs at this ⊢
      rw [List.filter_cons_of_pos (by simp [hp.2]), this]
    rw [List.take_zero, List.drop_zero, e]
    rfl
  refine ⟨_, by rw [insertSpec, hloop]; rfl, ?_⟩
  exact newBases_insert [] [p] links spec hn hs (by simp)

/-- C96, where it fails: a spec added in a layer weaker than all specs of the node, whose other bases are all proxies (or
there are none, as for the world), takes the place of all bases. -/
theorem C96_lost_violation (E : Env) (path : Str) (tgt spec : Nat) (specs links : List Nat) (own : Dict Str Val)
    (hb : Based E specs links) (hs : spec ∉ specs ++ links)
    (hw : ∀ b ∈ specs, ¬ Weaker E tgt b) (hl : ∀ b ∈ links, E.proxy b = true) :
    ∃ c, insertSpec E path tgt spec ⟨own, specs ++ links⟩ = some c ∧ c.bases = [spec] ∧
      ∀ a ∈ opinionAttrs, (getAttr (E.table spec) a).hasOpinion = true → get? a c.own = some (getAttr (E.table spec) a) := by
  have hloop := insertLoop_based (E := E) tgt spec links hb.link hb.linkLayer [] specs (fun _ h => nomatch h) hb.spec
    hb.layer hb.sorted
  have hneg : ¬ ((∃ b ∈ specs, Weaker E tgt b) ∨ ∃ b ∈ links, E.proxy b = false) := by
    rintro (⟨b, h1, h2⟩ | ⟨b, h1, h2⟩)
    · exact hw b h1 h2
    · rw [hl b h1] at h2; cases h2
  simp only [List.nil_append, List.length_nil, if_neg hneg] at hloop
  refine ⟨_, by rw [insertSpec, hloop]; rfl, ?_, ?_⟩
  · show newBases (specs ++ links) [spec] = [spec]
    unfold newBases
    rw [if_neg]
    rintro ⟨b, h1, h2⟩
    rw [List.mem_singleton.1 h1] at h2
    exact hs h2
  · intro a ha ho
    obtain ⟨o1, -⟩ := (overload_bases E path [spec] own a).1 ((Comp.mem_overload a).2 ha)
    have : strongest ([spec].map E.table) a = some (E.table spec) := by
      unfold strongest
      rw [List.map_cons, List.find?_cons_of_pos (p := fun n => (getAttr n a).hasOpinion) ho]
    rw [this] at o1
    exact o1

/-- Classes 1 and 2 are specs of layers 0 and 2, class 3 is the parent, class 9 the new spec; each says something on the
comment. -/
def exBases (parentProxy : Bool) : Env where
  isComp b := b == 3
  proxy b := b == 3 && parentProxy
  layer b := match b with | 1 => some 0 | 2 => some 2 | 3 => some 0 | _ => none
  arc b := if b = 3 then some .parent else some .reference
  table b := match b with
    | 1 => [("_source_layer".toList, .str "top".toList), ("_comment".toList, .none), ("_code".toList, .list [.str "one".toList])]
    | 2 => [("_source_layer".toList, .str "low".toList), ("_comment".toList, .str "two".toList), ("_code".toList, .list [])]
    | 9 => [("_source_layer".toList, .str "mid".toList), ("_comment".toList, .str "new".toList), ("_code".toList, .list [.str "nine".toList])]
    | _ => []

theorem exBased (pp : Bool) : Based (exBases pp) [1, 2] [3] where
  spec := by cases pp <;> decide +kernel
  layer := by intro b hb; simp only [List.mem_cons, List.not_mem_nil, or_false] at hb; rcases hb with rfl | rfl <;> exact ⟨_, rfl⟩
  sorted := by
    simp only [List.pairwise_cons, List.mem_cons, List.not_mem_nil, or_false, forall_eq, false_imp_iff, implies_true,
      List.Pairwise.nil, and_true]
    intro l m h1 h2
    have e1 : (exBases pp).layer 1 = some 0 := rfl
    have e2 : (exBases pp).layer 2 = some 2 := rfl
    rw [e1] at h1; rw [e2] at h2
    cases h1; cases h2; omega
  link := by cases pp <;> decide +kernel
  linkLayer := by intro b hb _; rw [List.mem_singleton.1 hb]; exact ⟨0, rfl⟩

/-- The new spec of layer 1 goes between; its comment wins over the weaker one, its code loses to the stronger one. -/
example : ((∃ b ∈ [1, 2], Weaker (exBases true) 1 b) ∨ ∃ b ∈ [3], (exBases true).proxy b = false) ∧
    (insertSpec (exBases true) "/a".toList 1 9 ⟨[], [1, 2, 3]⟩).map (·.bases) = some [1, 9, 2, 3] ∧
    (insertSpec (exBases true) "/a".toList 1 9 ⟨[], [1, 2, 3]⟩).map (fun c => (get? "_comment".toList c.own, get? "_comment_source__nxt".toList c.own)) =
      some (some (.str "new".toList), some (.src (some "mid".toList) "/a".toList)) ∧
    (insertSpec (exBases true) "/a".toList 1 9 ⟨[], [1, 2, 3]⟩).map (fun c => get? "_code".toList c.own) =
      some (some (.list [.str "one".toList])) :=
  ⟨.inl ⟨2, by simp, ⟨2, rfl, by decide⟩⟩, by rfl, by rfl, by rfl⟩

/-- Added in layer 3 the parent being a proxy, it replaces all bases, and its code hides the stronger one; the parent
being none, all is well. -/
example : (insertSpec (exBases true) "/a".toList 3 9 ⟨[], [1, 2, 3]⟩).map (·.bases) = some [9] ∧
    (insertSpec (exBases true) "/a".toList 3 9 ⟨[], [1, 2, 3]⟩).map (fun c => get? "_code".toList c.own) =
      some (some (.list [.str "nine".toList])) ∧
    (insertSpec (exBases false) "/a".toList 3 9 ⟨[], [1, 2, 3]⟩).map (·.bases) = some [1, 2, 9, 3] ∧
    (insertSpec (exBases false) "/a".toList 3 9 ⟨[], [1, 2, 3]⟩).map (fun c => get? "_code".toList c.own) =
      some (some (.list [.str "one".toList])) :=
  ⟨by rfl, by rfl, by rfl, by rfl⟩

/-- A new spec over the proxy 4 whose instance source 3 is none. -/
example : (insertSpec { exBases false with proxy := fun b => b == 4 } "/a".toList 3 9 ⟨[], [4, 3]⟩).map (·.bases) = some [9, 4, 3] := by rfl

/-! ## C97: inherited attributes -/

theorem attrStep_true (E : Env) (arcs : List Arc) (a : Str) (bases : List Nat) (v : Option Val) :
    bases.foldl (attrStep E arcs a) (v, true) = (v, true) := by
  induction bases with
  | nil => rfl
  | cons b bs ih =>
    rw [List.foldl_cons]
    have : attrStep E arcs a (v, true) b = (v, true) := by unfold attrStep; rw [if_pos (.inr rfl)]
    rw [this, ih]

/-- The loop over bases whose arcs, as far as they hand on the attribute, are all to be updated. -/
theorem attrStep_fold (E : Env) (arcs : List Arc) (a : Str) (bases : List Nat)
    (h : ∀ b ∈ bases, ∀ x, E.arc b = some x → a ∈ handsOn x → x ∈ arcs) (v : Option Val) :
    bases.foldl (attrStep E arcs a) (v, false) =
      match givenBy E a bases with
      | some w => (some w, true)
      | none => (if ∃ b ∈ bases, ∃ x, E.arc b = some x ∧ a ∈ handsOn x then some (default a) else v, false) := by
  induction bases generalizing v with
  | nil => simp [givenBy]
  | cons b bs ih =>
    have ih := ih (fun b hb => h b (List.mem_cons_of_mem _ hb))
    rw [List.foldl_cons]
    by_cases hp : ∃ x, E.arc b = some x ∧ a ∈ handsOn x
    · obtain ⟨x, e, hx⟩ := hp
      have hin : ∃ x, E.arc b = some x ∧ x ∈ arcs := ⟨x, e, h b List.mem_cons_self x e hx⟩
      have hpass : a ∈ passed (E.arc b) := (mem_passed _ a).2 ⟨x, e, hx⟩
      by_cases ho : (getAttr (E.table b) a).hasOpinion = true
      · have hg : Gives E a b := ⟨⟨x, e, hx⟩, ho⟩
        have e1 : attrStep E arcs a (v, false) b = (some (getAttr (E.table b) a), true) := by
          unfold attrStep
          rw [if_neg (by simp [hpass]), if_pos ho, if_pos hin]
        have e2 : givenBy E a (b :: bs) = some (getAttr (E.table b) a) := by
          unfold givenBy
          rw [List.find?_cons_of_pos (by simp [hg])]
          rfl
        rw [e1, e2, attrStep_true]
      · have hg : ¬ Gives E a b := fun h => ho h.2
        have e1 : attrStep E arcs a (v, false) b = (some (default a), false) := by
          unfold attrStep
          rw [if_neg (by simp [hpass]), if_neg ho, if_pos hin]
        have e2 : givenBy E a (b :: bs) = givenBy E a bs := by
          unfold givenBy
          rw [List.find?_cons_of_neg (by simp [hg])]
        rw [e1, e2, ih]
        cases givenBy E a bs with
        | some w => rfl
        | none =>
          simp only
          rw [if_pos (c := ∃ b' ∈ b :: bs, ∃ x, E.arc b' = some x ∧ a ∈ handsOn x) ⟨b, List.mem_cons_self, x, e, hx⟩]
          split <;> rfl
    · have hg : ¬ Gives E a b := fun h => hp h.1
      have e1 : attrStep E arcs a (v, false) b = (v, false) := by
        unfold attrStep
        rw [if_pos (.inl (fun h => hp ((mem_passed _ a).1 h)))]
      have e2 : givenBy E a (b :: bs) = givenBy E a bs := by
        unfold givenBy
        rw [List.find?_cons_of_neg (by simp [hg])]
      rw [e1, e2, ih]
      have : (∃ b' ∈ b :: bs, ∃ x, E.arc b' = some x ∧ a ∈ handsOn x) ↔ ∃ b' ∈ bs, ∃ x, E.arc b' = some x ∧ a ∈ handsOn x := by
        constructor
        · rintro ⟨c, hc, h'⟩
          rcases List.mem_cons.1 hc with rfl | hc
          · exact absurd h' hp
          · exact ⟨c, hc, h'⟩
        · rintro ⟨c, hc, h'⟩; exact ⟨c, List.mem_cons_of_mem _ hc, h'⟩
      simp only [this]

/-- C97: with all arcs, every composed attribute becomes the opinion of the first base which hands it on, or the
default. -/
theorem C97_all (E : Env) (proxy : Bool) (c : Node) (a : Str) (ha : a ∈ opinionAttrs)
    (hp : proxy = true → a ≠ "_instance".toList) :
    get? a (update E proxy [.reference, .parent, .inst] c).own = some ((givenBy E a c.bases).getD (noOpinion a)) := by
  have har : a ∈ handsOn .reference := by
    have : ∀ x, x ∈ opinionAttrs ↔ x ∈ handsOn .reference := fun x => List.Perm.mem_iff (by decide +kernel)
    exact (this a).1 ha
  have hd : decide (proxy = true ∧ a = A_INSTANCE) = false := by
    rw [decide_eq_false_iff_not]; rintro ⟨h1, h2⟩; exact hp h1 h2
  rw [update_attr, hd, attrStep_fold _ _ _ _ (fun _ _ x _ _ => by cases x <;> simp)]
  cases hg : givenBy E a c.bases with
  | some w => simp
  | none =>
    simp only [Option.getD_none]
    by_cases he : ∃ b ∈ c.bases, ∃ x, E.arc b = some x ∧ a ∈ handsOn x
    · rw [if_pos he]
      split <;> rfl
    · rw [if_pos ⟨trivial, .reference, by simp, fun b hb h => he ⟨b, hb, .reference, h, har⟩, har⟩]
      rfl

/-- C97: with the instance arc and without the reference arc, the three attributes instances hand on stay when a spec has
an opinion; otherwise they become the first opinion of the instance sources, or the default.  The other attributes
stay. -/
theorem C97_instances (E : Env) (proxy : Bool) (arcs : List Arc) (own : Dict Str Val) (specs links : List Nat)
    (hs : ∀ b ∈ specs, E.arc b = some .reference) (hl : ∀ b ∈ links, E.arc b ≠ some .reference)
    (h1 : Arc.inst ∈ arcs) (h2 : Arc.reference ∉ arcs) (a : Str) :
    get? a (update E proxy arcs ⟨own, specs ++ links⟩).own =
      if a ∈ ["_enabled", "_comment", "_code"].map String.toList ∧ ∀ b ∈ specs, (getAttr (E.table b) a).hasOpinion = false then
        some ((givenBy E a links).getD (noOpinion a))
      else get? a own := by
  rw [update_attr]
  simp only [List.foldl_append]
  have hi : a ∈ handsOn .inst ↔ a ∈ ["_enabled", "_comment", "_code"].map String.toList := Iff.rfl
  have hi' : (a ∈ ["_enabled", "_comment", "_code"].map String.toList) = (a ∈ handsOn .inst) := propext hi.symm
  simp only [hi']
  -- the specs leave the value
  have key : ∀ (l : List Nat), (∀ b ∈ l, E.arc b = some .reference) → ∀ (v : Option Val) (f : Bool),
      l.foldl (attrStep E arcs a) (v, f) =
        (v, f || decide (a ∈ handsOn .reference ∧ ∃ b ∈ l, (getAttr (E.table b) a).hasOpinion = true)) := by
    intro l
    induction l with
    | nil => intro _ v f; simp
    | cons b bs ih =>
      intro hb v f
      have hba := hb b List.mem_cons_self
      have hno : ¬ ∃ x, E.arc b = some x ∧ x ∈ arcs := by
        rintro ⟨x, e, hx⟩; rw [hba] at e; cases e; exact h2 hx
      have hpass : a ∈ passed (E.arc b) ↔ a ∈ handsOn .reference := by
        rw [mem_passed, hba]; simp
      have e1 : attrStep E arcs a (v, f) b =
          (v, f || decide (a ∈ handsOn .reference ∧ (getAttr (E.table b) a).hasOpinion = true)) := by
        unfold attrStep
        by_cases c1 : a ∈ handsOn .reference
        · cases f with
          | true => rw [if_pos (.inr rfl)]; simp
          | false =>
            rw [if_neg (by simp [hpass, c1])]
            by_cases c2 : (getAttr (E.table b) a).hasOpinion = true
            · rw [if_pos c2, if_neg hno]; simp [c1, c2]
            · rw [if_neg c2, if_neg hno]; simp [c2]
        · rw [if_pos (.inl (fun h => c1 (hpass.1 h)))]; simp [c1]
      rw [List.foldl_cons, e1, ih (fun x hx => hb x (List.mem_cons_of_mem _ hx))]
      congr 1
      by_cases c1 : a ∈ handsOn .reference <;> by_cases c2 : (getAttr (E.table b) a).hasOpinion = true <;> cases f <;>
        simp [c1, c2]
  have hir : a ∈ handsOn .inst → a ∈ handsOn .reference ∧ a ≠ A_INSTANCE := by
    have : ∀ x ∈ handsOn .inst, x ∈ handsOn .reference ∧ x ≠ A_INSTANCE := by decide +kernel
    exact this a
  rw [key specs hs]
  by_cases hai : a ∈ handsOn .inst
  · obtain ⟨har, hne⟩ := hir hai
    have hd : decide (proxy = true ∧ a = A_INSTANCE) = false := by rw [decide_eq_false_iff_not]; exact fun h => hne h.2
    rw [hd, Bool.false_or]
    by_cases ho : ∃ b ∈ specs, (getAttr (E.table b) a).hasOpinion = true
    · rw [decide_eq_true ⟨har, ho⟩, attrStep_true, if_neg (by simp), if_neg]
      rintro ⟨-, h⟩
      obtain ⟨b, hb, hb'⟩ := ho
      rw [h b hb] at hb'; cases hb'
    · have hno : ∀ b ∈ specs, (getAttr (E.table b) a).hasOpinion = false := by
        intro b hb
        cases hc : (getAttr (E.table b) a).hasOpinion with
        | false => rfl
        | true => exact absurd ⟨b, hb, hc⟩ ho
      rw [decide_eq_false (fun h => ho h.2), if_pos (c := a ∈ handsOn .inst ∧ _) ⟨hai, hno⟩]
      rw [attrStep_fold _ _ _ links (fun b hb x e hx => by
        cases x with
        | reference => exact absurd e (hl b hb)
        | parent => exact absurd hx (by simp [handsOn])
        | inst => exact h1)]
      cases hg : givenBy E a links with
      | some w => simp
      | none =>
        simp only [Option.getD_none]
        by_cases he : ∃ b ∈ links, ∃ x, E.arc b = some x ∧ a ∈ handsOn x
        · rw [if_pos he]
          split <;> rfl
        · have hnone : ∀ b ∈ specs ++ links, E.arc b ≠ some .inst := by
            intro b hb h
            rcases List.mem_append.1 hb with hb | hb
            · rw [hs b hb] at h; cases h
            · exact he ⟨b, hb, .inst, h, hai⟩
          rw [if_pos ⟨trivial, .inst, h1, hnone, hai⟩]
          rfl
  · rw [if_neg (c := a ∈ handsOn .inst ∧ _) (fun h => hai h.1)]
    have hlinks : ∀ (st : Option Val × Bool), links.foldl (attrStep E arcs a) st = st := by
      have : ∀ l : List Nat, (∀ b ∈ l, E.arc b ≠ some .reference) → ∀ st : Option Val × Bool,
          l.foldl (attrStep E arcs a) st = st := by
        intro l
        induction l with
        | nil => intros; rfl
        | cons b bs ih =>
          intro hb st
          have e1 : attrStep E arcs a st b = st := by
            have hnp : a ∉ passed (E.arc b) := ?_
            · unfold attrStep; rw [if_pos (.inl hnp)]
            intro h
            obtain ⟨x, e, hx⟩ := (mem_passed _ a).1 h
            cases x with
            | reference => exact hb b List.mem_cons_self e
            | parent => exact absurd hx (by simp [handsOn])
            | inst => exact hai hx
          rw [List.foldl_cons, e1, ih (fun x hx => hb x (List.mem_cons_of_mem _ hx))]
      exact this links hl
    rw [hlinks, if_neg]
    rintro ⟨-, x, hx, -, hax⟩
    cases x with
    | reference => exact h2 hx
    | parent => exact absurd hax (by simp [handsOn])
    | inst => exact hai hax

/-- C97: no other key changes, and a proxy keeps its instance path. -/
theorem C97_others (E : Env) (proxy : Bool) (arcs : List Arc) (c : Node) (k : Str)
    (h : k ∉ opinionAttrs ∨ (proxy = true ∧ k = "_instance".toList)) :
    get? k (update E proxy arcs c).own = get? k c.own := by
  rw [update_attr]
  rcases h with h | h
  · have hno : ∀ x, k ∉ handsOn x := by
      intro x hx
      have : ∀ y, ∀ z ∈ handsOn y, z ∈ opinionAttrs := by intro y; cases y <;> decide +kernel
      exact h (this x k hx)
    have : ∀ (l : List Nat) (st : Option Val × Bool), l.foldl (attrStep E arcs k) st = st := by
      intro l
      induction l with
      | nil => intro st; rfl
      | cons b bs ih =>
        intro st
        have e1 : attrStep E arcs k st b = st := by
          unfold attrStep
          rw [if_pos (.inl (fun h => by obtain ⟨x, -, hx⟩ := (mem_passed _ k).1 h; exact hno x hx))]
        rw [List.foldl_cons, e1, ih]
    simp only [this]
    rw [if_neg]
    rintro ⟨-, x, -, -, hx⟩
    exact hno x hx
  · have hd : decide (proxy = true ∧ k = A_INSTANCE) = true := by rw [decide_eq_true_iff]; exact h
    rw [hd, attrStep_true]
    simp

/-- The comment comes from the second spec; without specs from the instance source. -/
example :
    let E := { exBases false with arc := fun b => if b = 3 then some .inst else some .reference,
                                  table := fun b => if b = 3 then [("_comment".toList, .str "src".toList)] else (exBases false).table b }
    get? "_comment".toList (update E false [.reference, .parent, .inst] ⟨[], [1, 2, 3]⟩).own = some (.str "two".toList) ∧
    get? "_comment".toList (update E false [.reference, .parent, .inst] ⟨[], [1, 3]⟩).own = some (.str "src".toList) ∧
    get? "_comment".toList (update E false [.parent, .inst] ⟨[], [1, 3]⟩).own = some (.str "src".toList) ∧
    get? "_code".toList (update E false [.reference, .parent, .inst] ⟨[], [2, 3]⟩).own = some (.list []) :=
  ⟨by rfl, by rfl, by rfl, by rfl⟩

/-! ## C99: a spec taken from a composite node -/

/-- C99: the composite node keeps its other bases in their order, and every composed attribute becomes the opinion of
the first of them which hands it on, or the default. -/
theorem C99_values (E : Env) (proxy : Bool) (spec : Nat) (order : List Str) (c : Node) :
    (removeSpec E proxy spec order c).bases = c.bases.filter (· ≠ spec) ∧
    ∀ a ∈ opinionAttrs, (proxy = true → a ≠ "_instance".toList) →
      get? a (removeSpec E proxy spec order c).own =
        some ((givenBy E a (c.bases.filter (· ≠ spec))).getD (noOpinion a)) :=
  ⟨rfl, fun a ha hp => C97_all E proxy _ a ha hp⟩

/-- C99, where it fails: the source of an attribute stays, although its value may come from another layer now. -/
theorem C99_source_violation (E : Env) (proxy : Bool) (spec : Nat) (order : List Str) (c : Node) (a : Str)
    (ha : a ∈ opinionAttrs) :
    get? (a ++ "_source__nxt".toList) (removeSpec E proxy spec order c).own = get? (a ++ "_source__nxt".toList) c.own := by
  have h1 : ∀ a ∈ opinionAttrs, a ++ "_source__nxt".toList ∉ opinionAttrs ∧ a ++ "_source__nxt".toList ≠ A_CHILD_ORDER := by
    decide +kernel
  obtain ⟨h2, h3⟩ := h1 a ha
  unfold removeSpec
  simp only
  rw [C97_others E proxy _ _ _ (.inl h2)]
  dsimp only
  split
  · rfl
  · rw [get?_set, if_neg h3]

/-- Spec 1 of the layer `top` is deleted: the code is gone, its source is still `top`; the comment of spec 2 would do. -/
example :
    let own : Dict Str Val := [("_code".toList, .list [.str "one".toList]), ("_code_source__nxt".toList, .src (some "top".toList) "/a".toList)]
    let c := removeSpec (exBases false) false 1 [] ⟨own, [1, 2, 9, 3]⟩
    c.bases = [2, 9, 3] ∧ get? "_code".toList c.own = some (.list [.str "nine".toList]) ∧
    get? "_code_source__nxt".toList c.own = some (.src (some "top".toList) "/a".toList) :=
  ⟨by rfl, by rfl, by rfl⟩

/-- C99: the node gets the child order merged from the bases left (`order` is the one it had). -/
theorem C99_order_set (E : Env) (proxy : Bool) (spec : Nat) (order : List Str) (c : Node)
    (h : get? "_child_order".toList c.own = some (.list (order.map Val.str))) :
    get? "_child_order".toList (removeSpec E proxy spec order c).own =
      some (.list ((mergedOrder E (c.bases.filter (· ≠ spec))).map Val.str)) := by
  unfold removeSpec
  simp only
  rw [C97_others E proxy _ _ _ (.inl (by decide +kernel))]
  dsimp only
  split
  · rename_i he; rw [h, ← he]
  · rw [get?_set, if_pos (show "_child_order".toList = A_CHILD_ORDER from rfl)]

/-- C99: the child order has the names the bases left list, but for those of the parent, each once. -/
theorem C99_order_names (E : Env) (bases : List Nat) (hn : ∀ b ∈ bases, (Comp.childOrder (E.table b)).Nodup) :
    (mergedOrder E bases).Nodup ∧
    ∀ x, x ∈ mergedOrder E bases ↔ ∃ b ∈ bases, E.arc b ≠ some .parent ∧ x ∈ listed (E.table b) := by
  have key : ∀ (l : List Nat), (∀ b ∈ l, (Comp.childOrder (E.table b)).Nodup) → ∀ acc : List Str, acc.Nodup →
      let r := l.foldl (fun acc b => if E.arc b = some .parent then acc else Lists.listMerger (Comp.childOrder (E.table b)) acc) acc
      r.Nodup ∧ ∀ x, x ∈ r ↔ x ∈ acc ∨ ∃ b ∈ l, E.arc b ≠ some .parent ∧ x ∈ listed (E.table b) := by
    intro l
    induction l with
    | nil => intro _ acc h; exact ⟨h, by simp⟩
    | cons b bs ih =>
      intro hb acc hacc
      simp only [List.foldl_cons]
      by_cases hp : E.arc b = some .parent
      · rw [if_pos hp]
        obtain ⟨i1, i2⟩ := ih (fun x hx => hb x (List.mem_cons_of_mem _ hx)) acc hacc
        refine ⟨i1, fun x => (i2 x).trans ?_⟩
        simp [hp]
      · rw [if_neg hp]
        obtain ⟨u1, u2⟩ := C15_union_nodup (Comp.childOrder (E.table b)) acc (hb b List.mem_cons_self) hacc
        obtain ⟨i1, i2⟩ := ih (fun x hx => hb x (List.mem_cons_of_mem _ hx)) _ u1
        refine ⟨i1, fun x => (i2 x).trans ?_⟩
        rw [u2, Comp.childOrder_eq]
        simp only [List.mem_cons, exists_eq_or_imp, ne_eq, hp, not_false_eq_true, true_and]
        constructor
        · rintro ((h | h) | h)
          · exact .inr (.inl h)
          · exact .inl h
          · exact .inr (.inr h)
        · rintro (h | h | h)
          · exact .inl (.inr h)
          · exact .inl (.inl h)
          · exact .inr h
  obtain ⟨k1, k2⟩ := key bases hn [] List.nodup_nil
  exact ⟨k1, fun x => (k2 x).trans (by simp)⟩

/-- C99, where it fails: of two specs left the order of the weaker one wins, unlike in a full composition. -/
theorem C99_order_violation (E : Env) (s w : Nat) (hs : E.arc s = some .reference) (hw : E.arc w = some .reference)
    (hsub : ∀ x ∈ listed (E.table s), x ∈ listed (E.table w)) (hsup : ∀ x ∈ listed (E.table w), x ∈ listed (E.table s)) :
    mergedOrder E [s, w] = listed (E.table w) ∧
    Lists.listMerger (listed (E.table s)) (listed (E.table w)) = listed (E.table s) := by
  refine ⟨?_, C15_contained _ _ hsup⟩
  unfold mergedOrder
  simp only [List.foldl_cons, List.foldl_nil, hs, hw, Option.some.injEq, reduceCtorEq, if_false, Comp.childOrder_eq]
  rw [C15_contained (listed (E.table s)) [] (by simp), C15_contained _ _ hsub]

example :
    let E := { exBases false with table := fun b => if b = 1 then [("_child_order".toList, .list [.str ['a'], .str ['b']])]
                                             else [("_child_order".toList, .list [.str ['b'], .str ['a']])] }
    mergedOrder E [1, 2, 3] = [['b'], ['a']] ∧ listed (E.table 1) = [['a'], ['b']] := ⟨by rfl, by rfl⟩

end Nxt.Props
