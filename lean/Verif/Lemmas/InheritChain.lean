import Verif.Lemmas.InheritPlain
/-!
# The orders of nodes whose instance sources are plain
-/
namespace Nxt.Inherit
open Dict NodeData Mro Spec Path

variable {g : Classes} {nodes : Dict Str Nat} {specs links : Nat → List Nat}

/-- The parent's order first, then that of the instance source. -/
theorem merge_two (n : Nat) {a b : Nat} {pre t lb : List Nat} (hn : (a :: pre).Nodup) (h0 : 0 ∈ t) (hz : ∀ s ∈ a :: pre, s ≠ 0)
    (hd : ∀ s ∈ a :: pre, s ∉ lb) (hb : b ∈ lb) (ht : List.Sublist t lb) (hl : lb.Nodup) :
    merge (List.replicate n [0] ++ [(a :: pre) ++ t, lb, [a, b]]) = some ((a :: pre) ++ lb) := by
  have ha := hd a List.mem_cons_self
  have hab : a ≠ b := by rintro rfl; exact ha hb
  have hp : pick (List.replicate n [0] ++ [(a :: pre) ++ t, lb, [a, b]]) (List.replicate n [0] ++ [(a :: pre) ++ t, lb, [a, b]]) =
      some a := by
    rw [pick_skip]
    · apply pick_head
      intro l hl
      rcases List.mem_append.1 hl with hl | hl
      · rw [List.eq_of_mem_replicate hl]; simp
      · simp only [List.mem_cons, List.not_mem_nil, or_false] at hl
        rcases hl with rfl | rfl | rfl
        · simp only [List.cons_append, List.tail_cons, List.mem_append, not_or]
          exact ⟨(List.nodup_cons.1 hn).1, fun h => ha (ht.subset h)⟩
        · exact fun h => ha (List.mem_of_mem_tail h)
        · simpa using hab
    · intro l hl h hh
      rw [List.eq_of_mem_replicate hl] at hh
      cases hh
      exact ⟨(a :: pre) ++ t, by simp, by simp [h0]⟩
  rw [merge_step hp]
  have e1 : (List.replicate n [0]).map (strip a) = List.replicate n [0] := by
    rw [List.map_replicate, strip_not_mem (by simpa using hz a List.mem_cons_self)]
  rw [List.map_append, e1, List.map_cons, List.map_cons, List.map_cons, List.cons_append, strip_cons, strip_cons, strip_not_mem ha,
    List.map_nil, merge_prefix n pre t [lb, [b]] (List.nodup_cons.1 hn).2 h0]
  · have : merge (List.replicate n [0] ++ [t, lb, [b]]) = some lb := by
      refine merge_of_sublists lb _ (by simp) ?_ hl
      intro l hl
      rcases List.mem_append.1 hl with hl | hl
      · rw [List.eq_of_mem_replicate hl]
        exact List.singleton_sublist.2 (ht.subset h0)
      · simp only [List.mem_cons, List.not_mem_nil, or_false] at hl
        rcases hl with rfl | rfl | rfl
        · exact ht
        · exact List.Sublist.refl _
        · exact List.singleton_sublist.2 hb
    rw [this]
    rfl
  · intro s hs
    refine ⟨hz s (List.mem_cons_of_mem _ hs), fun h => hd s (List.mem_cons_of_mem _ hs) (ht.subset h), fun l hl h => ?_⟩
    simp only [List.mem_cons, List.not_mem_nil, or_false] at hl
    rcases hl with rfl | rfl
    · exact hd s (List.mem_cons_of_mem _ hs) h
    · rw [List.mem_singleton] at h
      subst h
      exact hd s (List.mem_cons_of_mem _ hs) hb

/-! ### Lineages -/

theorem mem_lineage (ns : List Str) : ∀ q, q ∈ lineage ns ↔ q <+: ns := by
  induction ns using Legacy.snocInduct with
  | nil => intro q; rw [lineage_nil]; simp
  | snoc ns n ih =>
    intro q
    rw [lineage_snoc, List.mem_cons, ih, List.prefix_concat_iff]

theorem lineage_nodup (ns : List Str) : (lineage ns).Nodup := by
  induction ns using Legacy.snocInduct with
  | nil => rw [lineage_nil]; simp
  | snoc ns n ih =>
    rw [lineage_snoc, List.nodup_cons]
    refine ⟨fun h => ?_, ih⟩
    have := ((mem_lineage ns _).1 h).length_le
    simp only [List.length_append, List.length_cons, List.length_nil] at this
    omega

/-- The lineage of a prefix is the end of the lineage. -/
theorem lineage_split {m ns : List Str} (h : m <+: ns) : ∃ l, lineage ns = l ++ lineage m ∧ ∀ x ∈ l, x <+: ns ∧ ¬ x <+: m := by
  induction ns using Legacy.snocInduct with
  | nil =>
    rw [List.prefix_nil] at h
    exact ⟨[], by rw [h]; rfl, fun _ h => nomatch h⟩
  | snoc ns n ih =>
    rw [List.prefix_concat_iff] at h
    rcases h with rfl | h
    · exact ⟨[], rfl, fun _ h => nomatch h⟩
    · obtain ⟨l, h1, h2⟩ := ih h
      refine ⟨(ns ++ [n]) :: l, by rw [lineage_snoc, h1]; rfl, fun x hx => ?_⟩
      rcases List.mem_cons.1 hx with rfl | hx
      · refine ⟨List.prefix_refl _, fun hp => ?_⟩
        have h3 := hp.length_le
        have h4 := h.length_le
        simp at h3
        omega
      · exact ⟨(h2 x hx).1.trans (List.prefix_append _ _), (h2 x hx).2⟩

/-- A lineage is what is not above another path, then what is. -/
theorem lineage_parts (m s : List Str) : lineage m = (lineage m).filter (fun x => ¬ x <+: s) ++ (lineage m).filter (fun x => x <+: s) ∧
    List.Sublist ((lineage m).filter (fun x => x <+: s)) (lineage s) := by
  induction m using Legacy.snocInduct with
  | nil =>
    rw [lineage_nil]
    refine ⟨by simp, ?_⟩
    have : ([[]] : List (List Str)).filter (fun x => x <+: s) = [[]] := by simp
    rw [this]
    exact List.singleton_sublist.2 ((mem_lineage s []).2 (List.nil_prefix))
  | snoc m n ih =>
    rw [lineage_snoc]
    by_cases hp : m ++ [n] <+: s
    · have hall : ∀ x ∈ (m ++ [n]) :: lineage m, x <+: s := by
        intro x hx
        rw [← lineage_snoc, mem_lineage] at hx
        exact hx.trans hp
      have e1 : ((m ++ [n]) :: lineage m).filter (fun x => ¬ x <+: s) = [] := by
        rw [List.filter_eq_nil_iff]
        intro x hx
        simpa using hall x hx
      have e2 : ((m ++ [n]) :: lineage m).filter (fun x => x <+: s) = (m ++ [n]) :: lineage m := by
        rw [List.filter_eq_self]
        intro x hx
        simpa using hall x hx
      rw [e1, e2]
      refine ⟨rfl, ?_⟩
      obtain ⟨l, h1, -⟩ := lineage_split hp
      rw [h1, ← lineage_snoc]
      exact List.sublist_append_right _ _
    · rw [List.filter_cons_of_pos (by simpa using hp), List.filter_cons_of_neg (by simpa using hp)]
      exact ⟨congrArg _ ih.1, ih.2⟩

/-! ### The classes of a list of nodes -/

/-- A node and its specs. -/
def blockOf (nodes : Dict Str Nat) (specs : Nat → List Nat) (q : List Str) : List Nat :=
  match get? (render q) nodes with
  | some c => c :: specs c
  | none => []

/-- The classes of the nodes at paths. -/
def blocks (nodes : Dict Str Nat) (specs : Nat → List Nat) (l : List (List Str)) : List Nat := l.flatMap (blockOf nodes specs)

theorem blocks_append (l m : List (List Str)) : blocks nodes specs (l ++ m) = blocks nodes specs l ++ blocks nodes specs m := by
  unfold blocks; rw [List.flatMap_append]

theorem blocks_cons (q : List Str) (l : List (List Str)) : blocks nodes specs (q :: l) = blockOf nodes specs q ++ blocks nodes specs l := by
  unfold blocks; rw [List.flatMap_cons]

theorem blocks_nil_of {l : List (List Str)} (h : ∀ x ∈ l, get? (render x) nodes = none) : blocks nodes specs l = [] := by
  unfold blocks
  rw [List.flatMap_eq_nil_iff]
  intro x hx
  unfold blockOf
  rw [h x hx]

theorem blocks_sublist {l m : List (List Str)} (h : List.Sublist l m) : List.Sublist (blocks nodes specs l) (blocks nodes specs m) := by
  induction h with
  | slnil => exact List.Sublist.refl _
  | cons x _ ih =>
    rw [blocks_cons]
    exact ih.trans (List.sublist_append_right _ _)
  | cons_cons x _ ih =>
    rw [blocks_cons, blocks_cons]
    exact (List.Sublist.refl _).append ih

theorem mem_blocks {l : List (List Str)} {d : Nat} (h : d ∈ blocks nodes specs l) :
    ∃ x ∈ l, ∃ c, (render x, c) ∈ nodes ∧ (d = c ∨ d ∈ specs c) := by
  unfold blocks at h
  obtain ⟨x, hx, hd⟩ := List.mem_flatMap.1 h
  unfold blockOf at hd
  cases hg : get? (render x) nodes with
  | none => rw [hg] at hd; cases hd
  | some c =>
    rw [hg] at hd
    exact ⟨x, hx, c, mem_of_get? hg, List.mem_cons.1 hd⟩

theorem Laid.block_pos (h : Laid g nodes specs links) {l : List (List Str)} {d : Nat} (hd : d ∈ blocks nodes specs l) : d ≠ 0 := by
  obtain ⟨x, -, c, hc, rfl | hs⟩ := mem_blocks hd
  · exact Nat.pos_iff_ne_zero.1 (h.comp _ _ hc).1
  · exact Nat.pos_iff_ne_zero.1 (h.spec _ _ hc d hs).1

/-- Classes of different nodes are different. -/
theorem Laid.block_same (h : Laid g nodes specs links) {l m : List (List Str)} {d : Nat} (hl : ∀ x ∈ l, Names x)
    (hm : ∀ x ∈ m, Names x) (hd : d ∈ blocks nodes specs l) (hd' : d ∈ blocks nodes specs m) : ∃ x, x ∈ l ∧ x ∈ m := by
  obtain ⟨x, hx, c, hc, h1⟩ := mem_blocks hd
  obtain ⟨y, hy, e, he, h2⟩ := mem_blocks hd'
  have hce : c = e := by
    rcases h1 with rfl | h1 <;> rcases h2 with rfl | h2
    · rfl
    · exact absurd hc ((h.spec _ _ he _ h2).2.2.2 _)
    · exact absurd he ((h.spec _ _ hc _ h1).2.2.2 _)
    · exact h.disjoint _ _ _ _ hc he d h1 h2
  subst hce
  have := render_inj (hl x hx) (hm y hy) (h.inj _ _ _ hc he)
  subst this
  exact ⟨x, hx, hy⟩

theorem Laid.blocks_nodup (h : Laid g nodes specs links) {l : List (List Str)} (hl : ∀ x ∈ l, Names x) (hn : l.Nodup) :
    (blocks nodes specs l).Nodup := by
  induction l with
  | nil => exact List.nodup_nil
  | cons x l ih =>
    rw [blocks_cons, List.nodup_append]
    obtain ⟨n1, n2⟩ := List.nodup_cons.1 hn
    refine ⟨?_, ih (fun y hy => hl y (List.mem_cons_of_mem _ hy)) n2, fun a ha b hb hab => ?_⟩
    · unfold blockOf
      cases hg : get? (render x) nodes with
      | none => exact List.nodup_nil
      | some c =>
        have hc := mem_of_get? hg
        exact List.nodup_cons.2 ⟨fun hs => (h.spec _ _ hc _ hs).2.2.2 _ hc, h.nodup _ _ hc⟩
    · subst hab
      have ha' : a ∈ blocks nodes specs [x] := by rw [blocks_cons]; exact List.mem_append_left _ ha
      obtain ⟨y, hy1, hy2⟩ := Laid.block_same h (by intro y hy; rw [List.mem_singleton.1 hy]; exact hl x List.mem_cons_self)
        (fun y hy => hl y (List.mem_cons_of_mem _ hy)) ha' hb
      rw [List.mem_singleton.1 hy1] at hy2
      exact n1 hy2

theorem blockOf_eq {q : List Str} {c : Nat} (h : get? (render q) nodes = some c) : blockOf nodes specs q = c :: specs c := by
  unfold blockOf; rw [h]

/-! ### The nearest node above -/

theorem prefix_names {x ns : List Str} (h : x <+: ns) (hn : Names ns) : Names x := by
  obtain ⟨t, rfl⟩ := h
  exact (names_append.1 hn).1

/-- What is above a node: the nearest node, and nothing between. -/
theorem near_split (ns : List Str) :
    (nearestAbove nodes ns = none → ∃ l, lineage ns = ns :: l ∧ ∀ x ∈ l, get? (render x) nodes = none) ∧
    ∀ a, nearestAbove nodes ns = some a → ∃ l m, lineage ns = ns :: (l ++ lineage m) ∧ (∀ x ∈ l, get? (render x) nodes = none) ∧
      get? (render m) nodes = some a ∧ m <+: ns ∧ m.length < ns.length := by
  rcases eq_nil_or_snoc ns with rfl | ⟨ns, n, rfl⟩
  · refine ⟨fun _ => ⟨[], rfl, fun _ h => nomatch h⟩, fun a h => ?_⟩
    simp [nearestAbove] at h
  · rw [nearestAbove_snoc, lineage_snoc]
    refine ⟨fun h => ⟨_, rfl, fun x hx => ?_⟩, fun a h => ?_⟩
    · rw [List.findSome?_eq_none_iff] at h
      exact h x hx
    · have : ∀ ms, (lineage ms).findSome? (fun q => get? (render q) nodes) = some a →
          ∃ l m, lineage ms = l ++ lineage m ∧ (∀ x ∈ l, get? (render x) nodes = none) ∧ get? (render m) nodes = some a ∧ m <+: ms := by
        intro ms
        induction ms using Legacy.snocInduct with
        | nil =>
          intro h
          refine ⟨[], [], rfl, fun _ h => (nomatch h), ?_, List.prefix_refl _⟩
          simpa [lineage_nil] using h
        | snoc ms y ih =>
          intro h
          rw [lineage_snoc, List.findSome?_cons] at h
          cases hg : get? (render (ms ++ [y])) nodes with
          | some b =>
            rw [hg] at h
            exact ⟨[], ms ++ [y], rfl, fun _ h => (nomatch h), by rw [hg]; exact h, List.prefix_refl _⟩
          | none =>
            rw [hg] at h
            obtain ⟨l, m, h1, h2, h3, h4⟩ := ih h
            refine ⟨(ms ++ [y]) :: l, m, by rw [lineage_snoc, h1]; rfl, fun x hx => ?_, h3, h4.trans (List.prefix_append _ _)⟩
            rcases List.mem_cons.1 hx with rfl | hx
            · exact hg
            · exact h2 x hx
      obtain ⟨l, m, h1, h2, h3, h4⟩ := this ns h
      refine ⟨l, m, by rw [h1], h2, h3, h4.trans (List.prefix_append _ _), ?_⟩
      have := h4.length_le
      simp
      omega

theorem up_iff (hok : Dict.Ok nodes) (hinj : ∀ p q c, (p, c) ∈ nodes → (q, c) ∈ nodes → p = q) {m : List Str} {a : Nat}
    (hm : Names m) (ha : (render m, a) ∈ nodes) : ∀ (k : Nat) (s : List Str) (b : Nat), s.length < k → Names s → (render s, b) ∈ nodes →
    (Up nodes b a ↔ m <+: s) := by
  intro k
  induction k with
  | zero => intro s b h; omega
  | succ k ih =>
    intro s b hlt hs hb
    constructor
    · intro hu
      cases hu with
      | self =>
        rw [render_inj hm hs (hinj _ _ _ ha hb)]
        exact List.prefix_refl _
      | @step ns _ x _ hN hc hn hx =>
        have := render_inj hN hs (hinj _ _ _ hc hb)
        subst this
        obtain ⟨l, m', -, -, h3, h4, h5⟩ := (near_split ns).2 x hn
        exact ((ih m' x (by omega) (prefix_names h4 hs) (mem_of_get? h3)).1 hx).trans h4
    · intro hp
      by_cases he : m = s
      · subst he
        have : a = b := Option.some.inj ((get?_of_mem hok ha).symm.trans (get?_of_mem hok hb))
        subst this
        exact .self _
      · cases hn : nearestAbove nodes s with
        | none =>
          obtain ⟨l, h1, h2⟩ := (near_split s).1 hn
          have hml := (mem_lineage s m).2 hp
          rw [h1] at hml
          rcases List.mem_cons.1 hml with e | hml
          · exact absurd e he
          · have := h2 m hml
            rw [get?_of_mem hok ha] at this
            cases this
        | some x =>
          obtain ⟨l, m', h1, h2, h3, h4, h5⟩ := (near_split s).2 x hn
          have hml := (mem_lineage s m).2 hp
          rw [h1] at hml
          rcases List.mem_cons.1 hml with e | hml
          · exact absurd e he
          · rcases List.mem_append.1 hml with hml | hml
            · have := h2 m hml
              rw [get?_of_mem hok ha] at this
              cases this
            · refine .step hs hb hn ?_
              exact (ih m' x (by omega) (prefix_names h4 hs) (mem_of_get? h3)).2 ((mem_lineage m' m).1 hml)

/-! ### The orders -/

/-- Which nodes take from which, by their paths: sources are plain, and the sources of nodes one above the other are
one above the other. -/
structure Sources (nodes : Dict Str Nat) (src : List Str → Option (List Str)) : Prop where
  node : ∀ ns s, src ns = some s → Names s ∧ ∃ b, (render s, b) ∈ nodes
  plain : ∀ ns s m, src ns = some s → m <+: s → src m = none
  real : ∀ ns s, src ns = some s → get? (render ns) nodes ≠ none
  apart : ∀ ns s m s', src ns = some s → m <+: ns → src m = some s' → ¬ m <+: s
  below : ∀ ns s m s', src ns = some s → m <+: ns → src m = some s' → s' <+: s ∧ ∀ x, x <+: m → x <+: s → x <+: s'

/-- The nodes a node takes from, near to far: with a source, its own or that of the nearest node above which has one, first
those which are not above the source, then the source and what is above it. -/
def chain (src : List Str → Option (List Str)) (ns : List Str) : List (List Str) :=
  match (lineage ns).findSome? src with
  | none => lineage ns
  | some s => (lineage ns).filter (fun x => ¬ x <+: s) ++ lineage s

theorem chain_none {src : List Str → Option (List Str)} {ns : List Str} (h : ∀ m, m <+: ns → src m = none) : chain src ns = lineage ns := by
  unfold chain
  rw [List.findSome?_eq_none_iff.2 (fun m hm => h m ((mem_lineage ns m).1 hm))]

theorem chain_some {src : List Str → Option (List Str)} {ns s : List Str} (h : src ns = some s) :
    chain src ns = (lineage ns).filter (fun x => ¬ x <+: s) ++ lineage s := by
  unfold chain
  obtain ⟨tl, htl⟩ := lineage_head ns
  have : (lineage ns).findSome? src = some s := by rw [htl, List.findSome?_cons, h]
  rw [this]

/-- The nearest path with a source. -/
theorem findSome_lineage {src : List Str → Option (List Str)} {ns s : List Str} (h : (lineage ns).findSome? src = some s) :
    ∃ m, m <+: ns ∧ src m = some s ∧ ∀ x, x <+: ns → src x ≠ none → x <+: m := by
  induction ns using Legacy.snocInduct with
  | nil =>
    rw [lineage_nil] at h
    refine ⟨[], List.prefix_refl _, by simpa using h, fun x hx _ => hx⟩
  | snoc ns y ih =>
    rw [lineage_snoc, List.findSome?_cons] at h
    cases hs : src (ns ++ [y]) with
    | some b =>
      rw [hs] at h
      exact ⟨ns ++ [y], List.prefix_refl _, by rw [hs]; exact h, fun x hx _ => hx⟩
    | none =>
      rw [hs] at h
      obtain ⟨m, h1, h2, h3⟩ := ih h
      refine ⟨m, h1.trans (List.prefix_append _ _), h2, fun x hx hn => ?_⟩
      rcases List.prefix_concat_iff.1 hx with rfl | hx
      · exact absurd hs hn
      · exact h3 x hx hn

/-- A path without a source which is under one with a source. -/
theorem chain_near {src : List Str → Option (List Str)} {ns m s : List Str} (hm : m <+: ns) (hs : src m = some s)
    (hn : ∀ x, x <+: ns → src x ≠ none → x <+: m) : chain src ns = (lineage ns).filter (fun x => ¬ x <+: s) ++ lineage s := by
  unfold chain
  cases hf : (lineage ns).findSome? src with
  | none =>
    rw [List.findSome?_eq_none_iff] at hf
    rw [hf m ((mem_lineage ns m).2 hm)] at hs
    cases hs
  | some s' =>
    obtain ⟨m', h1, h2, h3⟩ := findSome_lineage hf
    have e : m = m' := (h3 m hm (by rw [hs]; simp)).eq_of_length_le (hn m' h1 (by rw [h2]; simp)).length_le
    subst e
    rw [hs] at h2
    cases h2
    rfl

theorem lineage_names {ns x : List Str} (hN : Names ns) (h : x ∈ lineage ns) : Names x := prefix_names ((mem_lineage ns x).1 h) hN

variable {src : List Str → Option (List Str)}

/-- The order of any node. -/
theorem Laid.chain_order (h : Laid g nodes specs links) (hs : Sources nodes src)
    (hl : ∀ ns c, Names ns → (render ns, c) ∈ nodes →
      links c = exactLinks nodes ns ((src ns).bind (fun s => get? (render s) nodes))) :
    ∀ (k : Nat) (ns : List Str) (c : Nat), ns.length < k → Names ns → get? (render ns) nodes = some c →
      Lin g c (blocks nodes specs (chain src ns) ++ [0]) := by
  -- a node without a source continues the order of the nearest node above
  have hcont : ∀ (k : Nat), (∀ (ns : List Str) (c : Nat), ns.length < k → Names ns → get? (render ns) nodes = some c →
        Lin g c (blocks nodes specs (chain src ns) ++ [0])) →
      ∀ (ns : List Str) (c : Nat), ns.length < k + 1 → Names ns → get? (render ns) nodes = some c → src ns = none →
        Lin g c (blocks nodes specs (chain src ns) ++ [0]) := by
    intro k ih ns c hlt hN hc hsrc
    have hm := mem_of_get? hc
    have hlc : links c = (nearestAbove nodes ns).toList := by rw [hl ns c hN hm, hsrc]; rfl
    have hgap : ∀ x, get? (render x) nodes = none → src x = none := fun x hx =>
      Option.eq_none_iff_forall_ne_some.2 (fun s hs' => hs.real x s hs' hx)
    cases hn : nearestAbove nodes ns with
    | none =>
      obtain ⟨l, h1, h2⟩ := (near_split ns).1 hn
      have hch : chain src ns = lineage ns := by
        refine chain_none (fun m hm => ?_)
        have := (mem_lineage ns m).2 hm
        rw [h1] at this
        rcases List.mem_cons.1 this with rfl | this
        · exact hsrc
        · exact hgap m (h2 m this)
      rw [hch, h1, blocks_cons, blocks_nil_of h2, blockOf_eq hc, List.append_nil]
      exact Laid.lin_none h hm (by rw [hlc, hn]; rfl)
    | some a =>
      obtain ⟨l, m, h1, h2, h3, h4, h5⟩ := (near_split ns).2 a hn
      have hmN := prefix_names h4 hN
      have hch : blocks nodes specs (chain src ns) = c :: specs c ++ blocks nodes specs (chain src m) ∧ ns ∉ chain src m := by
        have hfind : (lineage ns).findSome? src = (lineage m).findSome? src := by
          rw [h1, List.findSome?_cons, hsrc, List.findSome?_append,
            List.findSome?_eq_none_iff.2 (fun x hx => hgap x (h2 x hx)), Option.none_or]
        have hnl : ns ∉ lineage m := by
          intro hx
          have := ((mem_lineage m ns).1 hx).length_le
          omega
        unfold chain
        rw [hfind]
        cases hf : (lineage m).findSome? src with
        | none =>
          simp only
          rw [h1, blocks_cons, blocks_append, blocks_nil_of h2, blockOf_eq hc, List.nil_append]
          exact ⟨rfl, hnl⟩
        | some s =>
          simp only
          obtain ⟨m', p1, p2, p3⟩ := findSome_lineage hf
          have hap : ¬ m' <+: s := hs.apart m' s m' s p2 (List.prefix_refl _) p2
          have hns : ¬ ns <+: s := fun hx => hap ((p1.trans h4).trans hx)
          rw [h1, List.filter_cons_of_pos (by simpa using hns), List.filter_append, List.cons_append, blocks_cons, blocks_append,
            blocks_append, blocks_nil_of (fun x hx => h2 x (List.mem_filter.1 hx).1), blockOf_eq hc, List.nil_append, blocks_append]
          refine ⟨rfl, fun hx => ?_⟩
          rcases List.mem_append.1 hx with hx | hx
          · exact hnl (List.mem_filter.1 hx).1
          · exact hns ((mem_lineage s ns).1 hx)
      have hchN : ∀ y ∈ chain src m, Names y := by
        intro y hy
        unfold chain at hy
        cases hf : (lineage m).findSome? src with
        | none => rw [hf] at hy; exact lineage_names hmN hy
        | some s =>
          rw [hf] at hy
          obtain ⟨m', -, p2, -⟩ := findSome_lineage hf
          rcases List.mem_append.1 hy with hy | hy
          · exact lineage_names hmN (List.mem_filter.1 hy).1
          · exact lineage_names (hs.node m' s p2).1 hy
      rw [hch.1]
      have hla := ih m a (by omega) hmN h3
      have := Laid.lin_one h hm (by rw [hlc, hn]; rfl) hla (by
        intro hin
        rcases List.mem_append.1 hin with hin | hin
        · obtain ⟨x, hx1, hx2⟩ := Laid.block_same h (l := [ns]) (m := chain src m) (d := c)
            (fun y hy => by rw [List.mem_singleton.1 hy]; exact hN) hchN
            (by rw [blocks_cons, blockOf_eq hc]; simp) hin
          rw [List.mem_singleton.1 hx1] at hx2
          exact hch.2 hx2
        · rw [List.mem_singleton] at hin
          have := (h.comp _ _ hm).1
          omega)
      simpa using this
  -- the order of a source
  have hplain : ∀ (k : Nat) (ns : List Str) (c : Nat), ns.length < k → Names ns → get? (render ns) nodes = some c →
      (∀ m, m <+: ns → src m = none) → Lin g c (blocks nodes specs (lineage ns) ++ [0]) := by
    intro k
    induction k with
    | zero => intro ns c h; omega
    | succ k ih =>
      intro ns c hlt hN hc hsrc
      have hm := mem_of_get? hc
      have hlc : links c = (nearestAbove nodes ns).toList := by rw [hl ns c hN hm, hsrc ns (List.prefix_refl _)]; rfl
      cases hn : nearestAbove nodes ns with
      | none =>
        obtain ⟨l, h1, h2⟩ := (near_split ns).1 hn
        rw [h1, blocks_cons, blocks_nil_of h2, blockOf_eq hc, List.append_nil]
        exact Laid.lin_none h hm (by rw [hlc, hn]; rfl)
      | some a =>
        obtain ⟨l, m, h1, h2, h3, h4, h5⟩ := (near_split ns).2 a hn
        rw [h1, blocks_cons, blocks_append, blocks_nil_of h2, blockOf_eq hc, List.nil_append]
        have hla := ih m a (by omega) (prefix_names h4 hN) h3 (fun x hx => hsrc x (hx.trans h4))
        have := Laid.lin_one h hm (by rw [hlc, hn]; rfl) hla (by
          intro hin
          rcases List.mem_append.1 hin with hin | hin
          · obtain ⟨x, hx1, hx2⟩ := Laid.block_same h (l := [ns]) (m := lineage m) (d := c)
              (fun y hy => by rw [List.mem_singleton.1 hy]; exact hN) (fun y hy => lineage_names (prefix_names h4 hN) hy)
              (by rw [blocks_cons, blockOf_eq hc]; simp) hin
            rw [List.mem_singleton.1 hx1, mem_lineage] at hx2
            have := hx2.length_le
            omega
          · rw [List.mem_singleton] at hin
            have := (h.comp _ _ hm).1
            omega)
        simpa using this
  intro k
  induction k with
  | zero => intro ns c h; omega
  | succ k ih =>
    intro ns c hlt hN hc
    have hm := mem_of_get? hc
    cases hsrc : src ns with
    | none => exact hcont k ih ns c hlt hN hc hsrc
    | some s =>
      obtain ⟨hsN, b, hb⟩ := hs.node ns s hsrc
      have hgb := get?_of_mem h.ok hb
      have hlb := hplain (s.length + 1) s b (by omega) hsN hgb (fun m hm => hs.plain ns s m hsrc hm)
      have hlc := hl ns c hN hm
      rw [hsrc] at hlc
      simp only [Option.bind_some, hgb, exactLinks] at hlc
      have hap := hs.apart ns s ns s hsrc (List.prefix_refl _) hsrc
      have hcs : c ∉ blocks nodes specs (lineage s) ++ [0] := by
        intro hin
        rcases List.mem_append.1 hin with hin | hin
        · obtain ⟨x, hx1, hx2⟩ := Laid.block_same h (l := [ns]) (m := lineage s) (d := c)
            (fun y hy => by rw [List.mem_singleton.1 hy]; exact hN) (fun y hy => lineage_names hsN hy)
            (by rw [blocks_cons, blockOf_eq hc]; simp) hin
          rw [List.mem_singleton.1 hx1, mem_lineage] at hx2
          exact hap hx2
        · rw [List.mem_singleton] at hin
          have := (h.comp _ _ hm).1
          omega
      have hch := chain_some hsrc
      rw [hch]
      cases hn : nearestAbove nodes ns with
      | none =>
        obtain ⟨l, h1, h2⟩ := (near_split ns).1 hn
        rw [h1, List.filter_cons_of_pos (by simpa using hap), List.cons_append, blocks_cons, blocks_append,
          blocks_nil_of (fun x hx => h2 x (List.mem_filter.1 hx).1), blockOf_eq hc, List.nil_append]
        have := Laid.lin_one h hm (by rw [hlc, hn]; rfl) hlb hcs
        simpa using this
      | some a =>
        obtain ⟨l, m, h1, h2, h3, h4, h5⟩ := (near_split ns).2 a hn
        have hmN := prefix_names h4 hN
        have hup := up_iff h.ok h.inj hmN (mem_of_get? h3) (s.length + 1) s b (by omega) hsN hb
        rw [h1, List.filter_cons_of_pos (by simpa using hap), List.filter_append, List.cons_append, blocks_cons, blocks_append,
          blocks_append, blocks_nil_of (fun x hx => h2 x (List.mem_filter.1 hx).1), blockOf_eq hc, List.nil_append]
        rw [hn] at hlc
        by_cases hms : m <+: s
        · have hne : (lineage m).filter (fun x => ¬ x <+: s) = [] := by
            rw [List.filter_eq_nil_iff]
            intro x hx
            simpa using ((mem_lineage m x).1 hx).trans hms
          have e : links c = [b] := by
            rw [hlc]
            simp [hup.2 hms]
          rw [hne]
          have := Laid.lin_one h hm e hlb hcs
          simpa [blocks] using this
        · have e : links c = [a, b] := by
            rw [hlc]
            have : ¬ Up nodes b a := fun hu => hms (hup.1 hu)
            simp [this]
          -- the order of the node above: what is not above the source, then part of the order of the source
          have hA : ∃ t, Lin g a (blocks nodes specs ((lineage m).filter (fun x => ¬ x <+: s)) ++ t) ∧ 0 ∈ t ∧
              List.Sublist t (blocks nodes specs (lineage s) ++ [0]) := by
            have hla := ih m a (by omega) hmN h3
            unfold chain at hla
            cases hsm : (lineage m).findSome? src with
            | none =>
              rw [hsm] at hla
              obtain ⟨p1, p2⟩ := lineage_parts m s
              simp only at hla
              rw [p1, blocks_append, List.append_assoc] at hla
              exact ⟨_, hla, by simp, (blocks_sublist p2).append (List.Sublist.refl _)⟩
            | some s' =>
              rw [hsm] at hla
              simp only at hla
              obtain ⟨m', p1, p2, p3⟩ := findSome_lineage hsm
              obtain ⟨b1, b2⟩ := hs.below ns s m' s' hsrc (p1.trans h4) p2
              have b3 := hs.apart ns s m' s' hsrc (p1.trans h4) p2
              have ef : (lineage m).filter (fun x => ¬ x <+: s') = (lineage m).filter (fun x => ¬ x <+: s) := by
                apply List.filter_congr
                intro x hx
                have hxm := (mem_lineage m x).1 hx
                have : x <+: s' ↔ x <+: s := by
                  refine ⟨fun hh => hh.trans b1, fun hh => ?_⟩
                  rcases List.prefix_or_prefix_of_prefix hxm p1 with hx | hx
                  · exact b2 x hx hh
                  · exact absurd (hx.trans hh) b3
                simp [this]
              rw [ef, blocks_append, List.append_assoc] at hla
              obtain ⟨l', hl', -⟩ := lineage_split b1
              refine ⟨_, hla, by simp, List.Sublist.append ?_ (List.Sublist.refl _)⟩
              rw [hl', blocks_append]
              exact List.sublist_append_right _ _
          obtain ⟨t, ht1, ht2, ht3⟩ := hA
          obtain ⟨rest, hrest⟩ : ∃ rest, blocks nodes specs ((lineage m).filter (fun x => ¬ x <+: s)) = a :: rest := by
            obtain ⟨tl, htl⟩ := lineage_head m
            rw [htl, List.filter_cons_of_pos (by simpa using hms), blocks_cons, blockOf_eq h3]
            exact ⟨_, rfl⟩
          have hdis : ∀ x ∈ blocks nodes specs ((lineage m).filter (fun x => ¬ x <+: s)), x ∉ blocks nodes specs (lineage s) ++ [0] := by
            intro x hx hin
            rcases List.mem_append.1 hin with hin | hin
            · obtain ⟨y, hy1, hy2⟩ := Laid.block_same h (fun y hy => lineage_names hmN (List.mem_filter.1 hy).1)
                (fun y hy => lineage_names hsN hy) hx hin
              have := (List.mem_filter.1 hy1).2
              rw [mem_lineage] at hy2
              simp [hy2] at this
            · rw [List.mem_singleton] at hin
              exact Laid.block_pos h hx hin
          have hnd : (blocks nodes specs ((lineage m).filter (fun x => ¬ x <+: s))).Nodup :=
            Laid.blocks_nodup h (fun y hy => lineage_names hmN (List.mem_filter.1 hy).1) ((lineage_nodup m).filter _)
          have hbm : b ∈ blocks nodes specs (lineage s) ++ [0] := hlb.self
          have hca : c ∉ blocks nodes specs ((lineage m).filter (fun x => ¬ x <+: s)) ++ t := by
            intro hin
            rcases List.mem_append.1 hin with hin | hin
            · obtain ⟨x, hx1, hx2⟩ := Laid.block_same h (l := [ns]) (d := c)
                (fun y hy => by rw [List.mem_singleton.1 hy]; exact hN) (fun y hy => lineage_names hmN (List.mem_filter.1 hy).1)
                (by rw [blocks_cons, blockOf_eq hc]; simp) hin
              rw [List.mem_singleton.1 hx1] at hx2
              have := ((mem_lineage m ns).1 (List.mem_filter.1 hx2).1).length_le
              omega
            · exact hcs (ht3.subset hin)
          have hmg := merge_two (specs c).length (a := a) (b := b) (pre := rest) (t := t)
            (lb := blocks nodes specs (lineage s) ++ [0]) (hrest ▸ hnd) ht2
            (fun x hx => Laid.block_pos h (by rw [hrest]; exact hx)) (fun x hx => hdis x (by rw [hrest]; exact hx)) hbm ht3 hlb.nodup
          rw [← hrest] at hmg
          have := Laid.lin_comp h hm (ls := [blocks nodes specs ((lineage m).filter (fun x => ¬ x <+: s)) ++ t,
              blocks nodes specs (lineage s) ++ [0]]) (by rw [e]; exact .cons ht1 (.cons hlb .nil))
            (by
              intro l hl
              simp only [List.mem_cons, List.not_mem_nil, or_false] at hl
              rcases hl with rfl | rfl
              · exact hca
              · exact hcs)
            (m := blocks nodes specs ((lineage m).filter (fun x => ¬ x <+: s)) ++ (blocks nodes specs (lineage s) ++ [0]))
            (by rw [e]; simpa using hmg)
          simpa using this

end Nxt.Inherit
