import Verif.Lemmas.InheritPlain
import Verif.Lemmas.Increment
import Verif.Spec.Reinstance
/-!
# Lemmas about changing instance paths
-/
namespace Nxt.Reinstance
open Dict NodeData Mro Spec Inherit

variable {g : Classes} {nodes : Dict Str Nat} {specs links : Nat → List Nat}

/-! ### Nodes above -/

theorem nearestAbove_eq (nodes : Dict Str Nat) (ns : List Str) :
    nearestAbove nodes ns = (nearestNs nodes ns).bind (fun q => get? (render q) nodes) := by
  have key : ∀ l : List (List Str), l.findSome? (fun q => get? (render q) nodes) =
      (l.find? (fun q => (get? (render q) nodes).isSome)).bind (fun q => get? (render q) nodes) := by
    intro l
    induction l with
    | nil => rfl
    | cons q l ih =>
      rw [List.findSome?_cons, List.find?_cons]
      cases h : get? (render q) nodes with
      | none => simpa using ih
      | some b => simp [h]
  cases ns with
  | nil => rfl
  | cons n r =>
    simp only [nearestAbove, nearestNs, if_neg (List.cons_ne_nil n r)]
    exact key _

theorem nearestNs_prefix {ns q : List Str} (h : nearestNs nodes ns = some q) :
    ns ≠ [] ∧ q <+: ns.dropLast ∧ (get? (render q) nodes).isSome ∧
      ∀ r, r <+: ns.dropLast → (get? (render r) nodes).isSome → r <+: q := by
  unfold nearestNs at h
  split at h
  · cases h
  · rename_i hne
    refine ⟨hne, Increment.mem_lineage.1 (List.mem_of_find?_eq_some h), by simpa using List.find?_some h, ?_⟩
    generalize ns.dropLast = m at h
    revert h
    refine Legacy.snocInduct (P := fun m => (lineage m).find? (fun q => (get? (render q) nodes).isSome) = some q →
      ∀ r, r <+: m → (get? (render r) nodes).isSome → r <+: q) ?_ ?_ m
    · intro h r hr _
      rw [List.prefix_nil.1 hr]
      exact List.nil_prefix
    · intro m n ih h r hr hs
      rw [lineage_snoc, List.find?_cons] at h
      split at h
      · cases h; exact hr
      · rename_i hn
        rcases List.prefix_concat_iff.1 hr with hr | hr
        · rw [hr] at hs
          rw [hs] at hn; cases hn
        · exact ih h r hr hs

/-- Being above is having a shorter path. -/
theorem up_iff (hok : Dict.Ok nodes) (hp : Pathed nodes) (hinj : ∀ p q c, (p, c) ∈ nodes → (q, c) ∈ nodes → p = q) (N : Nat) :
    ∀ bs b as a, bs.length < N → Names bs → (render bs, b) ∈ nodes → Names as → (render as, a) ∈ nodes →
      (Up nodes b a ↔ as <+: bs) := by
  induction N with
  | zero => intro bs b as a h; omega
  | succ N ih =>
    intro bs b as a hlt hB hb hA ha
    constructor
    · intro hu
      cases hu with
      | self => rw [Path.render_inj hA hB (hinj _ _ _ ha hb)]; exact List.prefix_refl _
      | @step ms _ e _ hM hm hn hu' =>
        have := Path.render_inj hM hB (hinj _ _ _ hm hb)
        subst this
        rw [nearestAbove_eq] at hn
        cases hq : nearestNs nodes ms with
        | none => rw [hq] at hn; cases hn
        | some q =>
          rw [hq] at hn
          obtain ⟨hne, h1, _, _⟩ := nearestNs_prefix hq
          have hqp : q <+: ms := h1.trans (List.dropLast_prefix ms)
          have hQ : Names q := fun x hx => hM x (hqp.subset hx)
          have hlen : q.length ≤ ms.length - 1 := by
            have := h1.length_le
            rwa [List.length_dropLast] at this
          have hpos : 0 < ms.length := List.length_pos_iff.2 hne
          exact ((ih q e as a (by omega) hQ (mem_of_get? hn) hA ha).1 hu').trans hqp
    · intro hpre
      by_cases he : as = bs
      · subst he
        have h1 := get?_of_mem hok ha
        have h2 := get?_of_mem hok hb
        rw [h1] at h2; cases h2
        exact .self _
      · have hne : bs ≠ [] := by
          rintro rfl; exact he (List.prefix_nil.1 hpre)
        have hdl : as <+: bs.dropLast := by
          rcases Path.eq_nil_or_snoc bs with h | ⟨m, n, h⟩
          · exact absurd h hne
          · rw [h] at hpre he ⊢
            rw [List.dropLast_concat]
            rcases List.prefix_concat_iff.1 hpre with h | h
            · exact absurd h he
            · exact h
        have hsome : (get? (render as) nodes).isSome := by rw [get?_of_mem hok ha]; rfl
        cases hq : nearestNs nodes bs with
        | none =>
          unfold nearestNs at hq
          rw [if_neg hne] at hq
          have := List.find?_eq_none.1 hq as (Increment.mem_lineage.2 hdl)
          exact absurd hsome this
        | some q =>
          obtain ⟨_, h1, h2, h3⟩ := nearestNs_prefix hq
          obtain ⟨e, hge⟩ := Option.isSome_iff_exists.1 h2
          have hn : nearestAbove nodes bs = some e := by rw [nearestAbove_eq, hq]; exact hge
          have hqp : q <+: bs := h1.trans (List.dropLast_prefix bs)
          have hQ : Names q := fun x hx => hB x (hqp.subset hx)
          have hlen : q.length ≤ bs.length - 1 := by
            have := h1.length_le
            rwa [List.length_dropLast] at this
          have hpos : 0 < bs.length := List.length_pos_iff.2 hne
          exact .step hB hb hn ((ih q e as a (by omega) hQ (mem_of_get? hge) hA ha).2 (h3 as hdl hsome))

/-! ### Composed classes -/

/-- The classes of a graph whose instance sources are plain. -/
structure Composed (g : Classes) (nodes : Dict Str Nat) (specs : Nat → List Nat) (inst : Nat → Option Nat)
    (P : Nat → Prop) (links : Nat → List Nat) : Prop where
  laid : Laid g nodes specs links
  none : ∀ c, P c → inst c = none
  up : ∀ ns c a, Names ns → (render ns, c) ∈ nodes → P c → nearestAbove nodes ns = some a → P a
  source : ∀ p c b, (p, c) ∈ nodes → inst c = some b → P b ∧ ∃ q, (q, b) ∈ nodes
  exact : ∀ ns c, Names ns → (render ns, c) ∈ nodes → links c = exactLinks nodes ns (inst c)

/-- The alternatives of a link list while one node is changed. -/
theorem exact_alt {ns : List Str} {i : Option Nat} {ls : List Nat} (h : ls = exactLinks nodes ns i) :
    ls = (nearestAbove nodes ns).toList ∨ ∃ b, i = some b ∧ (ls = [] ∨ ls = [b] ∨
      ∃ a, nearestAbove nodes ns = some a ∧ ls = [a, b] ∧ ¬ Up nodes b a) := by
  cases i with
  | none => exact Or.inl h
  | some b =>
    refine Or.inr ⟨b, rfl, Or.inr ?_⟩
    rw [exactLinks] at h
    cases hn : nearestAbove nodes ns with
    | none => rw [hn] at h; exact Or.inl (by simpa using h)
    | some a =>
      rw [hn] at h
      by_cases hu : Up nodes b a
      · exact Or.inl (by simpa [hu] using h)
      · exact Or.inr ⟨a, rfl, by simpa [hu] using h, hu⟩

/-- All nodes but one are composed, and that one has the links `new`. -/
theorem Composed.but {inst : Nat → Option Nat} {P : Nat → Prop} (h : Composed g nodes specs inst P links) {ns : List Str}
    {c : Nat} (hN : Names ns) (hc : (render ns, c) ∈ nodes) {new : List Nat}
    (hnew : new = (nearestAbove nodes ns).toList ∨ (new = [] ∧ (inst c).isSome)) :
    PlainLinks nodes inst P (fun d => if d = c then new else links d) := by
  refine ⟨h.none, h.up, h.source, fun ns' c' hN' hc' => ?_⟩
  by_cases hcc : c' = c
  · subst hcc
    have := Path.render_inj hN' hN (h.laid.inj _ _ _ hc' hc)
    subst this
    simp only [if_true]
    rcases hnew with hnew | ⟨hnew, hi⟩
    · exact Or.inl hnew
    · obtain ⟨b, hb⟩ := Option.isSome_iff_exists.1 hi
      exact Or.inr ⟨b, hb, Or.inl hnew⟩
  · simp only [if_neg hcc]
    exact exact_alt (h.exact ns' c' hN' hc')

theorem withBases_twice (g : Classes) (c : Nat) (a b : List Nat) : withBases (withBases g c a) c b = withBases g c b := by
  unfold withBases
  congr 1
  funext d
  simp only
  split <;> rfl

theorem withBases_same (g : Classes) (c : Nat) : withBases g c (g.bases c) = g := by
  unfold withBases
  cases g
  congr 1
  funext d
  simp only
  split
  · rename_i h; rw [h]
  · rfl

/-- Taking the instance arc away. -/
theorem uncomp_ok (hp : Pathed nodes) {inst : Nat → Option Nat} {P : Nat → Prop}
    (h : Composed g nodes specs inst P links) {ns : List Str} {c : Nat} (hN : Names ns) (hne : ns ≠ [])
    (hc : (render ns, c) ∈ nodes) {o : Str} (ho : inst c = get? o nodes) :
    ∃ new, uncomp nodes g c (render ns) o = .ok (withBases g c (specs c ++ new)) ∧
      (new = (nearestAbove nodes ns).toList ∨ (new = [] ∧ (inst c).isSome)) := by
  have hb := (h.laid.comp _ c hc).2.2
  have hx := h.exact ns c hN hc
  have hspec : ∀ p d, (p, d) ∈ nodes → d ∉ specs c := fun p d hd hs => (h.laid.spec _ c hc d hs).2.2.2 _ hd
  -- the direct parent
  have hpar : get? (Path.parentPath (render ns)) nodes = none ∨ ∃ a, get? (Path.parentPath (render ns)) nodes = some a ∧
      nearestAbove nodes ns = some a := by
    rcases Path.eq_nil_or_snoc ns with h' | ⟨m, n, h'⟩
    · exact absurd h' hne
    · subst h'
      rw [Path.parentPath_render_snoc hN, nearestAbove_snoc]
      obtain ⟨t, ht⟩ := lineage_head m
      rw [ht, List.findSome?_cons]
      cases hg : get? (render m) nodes with
      | none => exact Or.inl rfl
      | some a => exact Or.inr ⟨a, rfl, rfl⟩
  have hset : ∀ new, (new = (nearestAbove nodes ns).toList ∨ (new = [] ∧ (inst c).isSome)) →
      replaceBases g c (specs c ++ new) = .ok (withBases g c (specs c ++ new)) := by
    intro new hnew
    unfold replaceBases
    split
    · rename_i e; rw [e, withBases_same]
    · have hL := Laid.withBases h.laid hc (new := new) (by
        intro d hd
        rcases hnew with hnew | ⟨hnew, _⟩
        · rw [hnew] at hd
          obtain ⟨q, _, _, hq, _⟩ := nearestAbove_mem hN (b := d) (by simpa using hd)
          exact ⟨_, hq⟩
        · rw [hnew] at hd; cases hd)
      rw [setBases_eq.2 ⟨rfl, Laid.all_lin hL (Laid.plain_orders hL hp (h.but hN hc hnew))⟩]
  have hnear : ∀ a, nearestAbove nodes ns = some a → a ∉ specs c := by
    intro a ha
    obtain ⟨q, _, _, hq, _⟩ := nearestAbove_mem hN ha
    exact hspec _ a hq
  unfold uncomp
  simp only
  rw [← ho]
  cases hi : inst c with
  | none =>
    rw [hi] at hx
    refine ⟨(nearestAbove nodes ns).toList, ?_, Or.inl rfl⟩
    simp only [hb, hx, exactLinks]
    rcases hpar with hpar | ⟨a, hpar, ha⟩
    · rw [hpar]; exact hset _ (Or.inl rfl)
    · rw [hpar]
      simp only
      rw [if_pos (by rw [ha]; simp)]
      exact hset _ (Or.inl rfl)
  | some b =>
    rw [hi] at hx
    obtain ⟨_, q, hq⟩ := h.source _ c b hc hi
    have hbs := hspec _ b hq
    have hmem : b ∈ g.bases c := by rw [hb, hx, exactLinks]; simp
    simp only
    rw [if_pos hmem]
    simp only
    have he : (g.bases c).erase b = specs c ++ (exactLinks nodes ns (some b)).dropLast := by
      rw [hb, hx, exactLinks, List.erase_append_right _ hbs, List.dropLast_concat]
      rw [List.erase_append_right _ (by simp [Up.self])]
      simp
    rw [he, exactLinks, List.dropLast_concat]
    cases hn : nearestAbove nodes ns with
    | none =>
      refine ⟨[], ?_, Or.inl rfl⟩
      rcases hpar with hpar | ⟨a, hpar, ha⟩
      · rw [hpar]; exact hset [] (Or.inl (by rw [hn]; rfl))
      · rw [hn] at ha; cases ha
    | some a =>
      by_cases hu : Up nodes b a
      · rcases hpar with hpar | ⟨a', hpar, ha'⟩
        · rw [hpar]
          refine ⟨[], ?_, Or.inr ⟨rfl, rfl⟩⟩
          simpa [hu] using hset [] (Or.inr ⟨rfl, by rw [hi]; rfl⟩)
        · rw [hn] at ha'; cases ha'
          rw [hpar]
          refine ⟨[a], ?_, Or.inl rfl⟩
          have := hset [a] (Or.inl (by rw [hn]; rfl))
          simpa [hu, hnear a hn] using this
      · refine ⟨[a], ?_, Or.inl rfl⟩
        have := hset [a] (Or.inl (by rw [hn]; rfl))
        rcases hpar with hpar | ⟨a', hpar, ha'⟩
        · rw [hpar]
          simpa [hu] using this
        · rw [hn] at ha'; cases ha'
          rw [hpar]
          simpa [hu] using this

theorem render_nonempty (ns : List Str) : render ns ≠ [] := by
  cases ns <;> simp [render, slashed]

theorem parentNode_eq {ns : List Str} (hN : Names ns) : parentNode nodes (parentText ns) = nearestAbove nodes ns := by
  unfold parentNode parentText
  by_cases hne : ns = []
  · subst hne; simp [nearestAbove]
  · rw [if_neg hne, if_neg (render_nonempty _), parentBasePath_spec _ _ (fun x hx => hN x (List.dropLast_subset _ hx))]
    cases ns with
    | nil => exact absurd rfl hne
    | cons n r => rfl

/-- The parent arc. -/
theorem parent_ok (hp : Pathed nodes) {inst : Nat → Option Nat} {P : Nat → Prop}
    (h : Composed g nodes specs inst P links) {ns : List Str} {c : Nat} (hN : Names ns) (hc : (render ns, c) ∈ nodes)
    {new : List Nat} (hnew : new = (nearestAbove nodes ns).toList ∨ (new = [] ∧ (inst c).isSome)) :
    addArc (withBases g c (specs c ++ new)) c (parentNode nodes (parentText ns)) =
      .ok (withBases g c (specs c ++ (nearestAbove nodes ns).toList)) := by
  rw [parentNode_eq hN]
  have hlink : ∀ d ∈ (nearestAbove nodes ns).toList, ∃ q, (q, d) ∈ nodes := by
    intro d hd
    obtain ⟨q, _, _, hq, _⟩ := nearestAbove_mem hN (b := d) (by simpa using hd)
    exact ⟨_, hq⟩
  have hL := Laid.withBases h.laid hc (new := new) (by
    intro d hd
    rcases hnew with hnew | ⟨hnew, _⟩
    · rw [hnew] at hd; exact hlink d hd
    · rw [hnew] at hd; cases hd)
  have hL' := Laid.withBases h.laid hc hlink
  have hO := Laid.plain_orders hL hp (h.but hN hc hnew)
  have hO' := Laid.plain_orders hL' hp (h.but hN hc (Or.inl rfl))
  have hspec : ∀ p d, (p, d) ∈ nodes → d ∉ specs c := fun p d hd hs => (h.laid.spec _ c hc d hs).2.2.2 _ hd
  cases hn : nearestAbove nodes ns with
  | none =>
    rw [hn] at hnew
    have : new = [] := by rcases hnew with h | h <;> simp_all
    rw [this]; rfl
  | some a =>
    rw [hn] at hnew hL' hO'
    simp only [addArc]
    obtain ⟨q, _, _, hq, _⟩ := nearestAbove_mem hN hn
    rcases hnew with hnew | ⟨hnew, _⟩
    · subst hnew
      have : a ∈ (withBases g c (specs c ++ (some a).toList)).bases c := by rw [withBases_self]; simp
      unfold Classes.safeAddBase
      rw [if_pos this]
    · subst hnew
      obtain ⟨la, hla⟩ := hO _ a hq
      obtain ⟨lc, hlc⟩ := hO' _ c hc
      obtain ⟨l0, hl0⟩ := hO _ c hc
      have hca : c ∉ la := not_below (bs := specs c ++ (some a).toList) (by simp) hla
        (l := lc) (by rw [withBases_twice]; exact hlc)
      have hna : a ∉ (withBases g c (specs c ++ [])).bases c := by
        rw [withBases_self]; simpa using hspec _ a hq
      rw [safeAddBase_eq hl0.bases_nodup hna, kept_eq hL hc hq hla hca]
      simp only [if_true, List.filter_nil, List.append_nil]
      rw [setBases_eq.2 ⟨rfl, ?_⟩]
      · simp only [withBases_twice]; rfl
      · rw [withBases_twice]
        exact Laid.all_lin hL' hO'

/-- The instance arc. -/
theorem source_ok (hp : Pathed nodes) {inst : Nat → Option Nat} {P : Nat → Prop} (h : Laid g nodes specs links)
    (hpl : PlainLinks nodes inst P links) {ns : List Str} {c : Nat} (hN : Names ns) (hc : (render ns, c) ∈ nodes)
    (hlc : links c = (nearestAbove nodes ns).toList) :
    ∃ g', addArc g c (inst c) = .ok g' ∧ g'.own = g.own ∧ g'.size = g.size ∧
      Laid g' nodes specs (fun d => if d = c then exactLinks nodes ns (inst c) else links d) := by
  cases hi : inst c with
  | none =>
    refine ⟨g, rfl, rfl, rfl, ?_⟩
    have : (fun d => if d = c then exactLinks nodes ns none else links d) = links := by
      funext d
      split
      · rename_i e; rw [e, hlc]; rfl
      · rfl
    rw [this]; exact h
  | some b =>
    have hO := Laid.plain_orders h hp hpl
    obtain ⟨hPb, q, hq⟩ := hpl.source _ c b hc hi
    obtain ⟨ms, hM, rfl⟩ := hp q b hq
    obtain ⟨lc, hl⟩ := hO _ c hc
    simp only [addArc]
    by_cases hbm : b ∈ g.bases c
    · have hbl : b ∈ links c := by
        rw [(h.comp _ c hc).2.2, List.mem_append] at hbm
        rcases hbm with hx | hx
        · exact absurd hq ((h.spec _ c hc b hx).2.2.2 _)
        · exact hx
      refine ⟨g, by unfold Classes.safeAddBase; rw [if_pos hbm], rfl, rfl, ?_⟩
      have hnb : nearestAbove nodes ns = some b := by rw [hlc] at hbl; simpa using hbl
      have : (fun d => if d = c then exactLinks nodes ns (some b) else links d) = links := by
        funext d
        split
        · rename_i e; rw [e, hlc, exactLinks, hnb]; simp [Up.self]
        · rfl
      rw [this]; exact h
    · obtain ⟨rest, hlb, _, hmem, hup⟩ := Laid.lin_plain h hpl (ms.length + 1) ms b (by omega) hM hq hPb
      generalize b :: (specs b ++ rest) = lb at hlb hmem hup
      have hcb : c ∉ lb := by
        intro hx
        have := hpl.none c (hmem ns c hN hc hx).1
        rw [hi] at this; cases this
      rw [safeAddBase_eq hl.bases_nodup hbm, kept_eq h hc hq hlb hcb, List.append_assoc]
      have hex : (links c).filter (fun d => decide (d = b ∨ d ∉ lb)) ++ [b] = exactLinks nodes ns (some b) := by
        rw [exactLinks, hlc]
        congr 1
        apply List.filter_congr
        intro a ha
        have hna : nearestAbove nodes ns = some a := by simpa using ha
        obtain ⟨qa, _, _, hqa, _⟩ := nearestAbove_mem hN hna
        have hab : a ≠ b := by
          rintro rfl
          apply hbm
          rw [(h.comp _ c hc).2.2, hlc, hna]; simp
        rw [Bool.eq_iff_iff]
        simp only [decide_eq_true_eq, hab, false_or]
        exact not_congr (hup _ a hqa)
      rw [hex]
      have hL := Laid.withBases h hc (new := exactLinks nodes ns (some b)) (by
        intro d hd
        rw [← hex] at hd
        rcases List.mem_append.1 hd with hd | hd
        · exact h.link _ c hc d (List.mem_filter.1 hd).1
        · rw [List.mem_singleton.1 hd]; exact ⟨_, hq⟩)
      have hpl' : PlainLinks nodes inst P (fun d => if d = c then exactLinks nodes ns (some b) else links d) := by
        refine ⟨hpl.none, hpl.up, hpl.source, fun ns' c' hN' hc' => ?_⟩
        by_cases hcc : c' = c
        · subst hcc
          have := Path.render_inj hN' hN (h.inj _ _ _ hc' hc)
          subst this
          simp only [if_true]
          rw [hi]
          exact exact_alt rfl
        · simp only [if_neg hcc]
          exact hpl.links ns' c' hN' hc'
      rw [setBases_eq.2 ⟨rfl, Laid.all_lin hL (Laid.plain_orders hL hp hpl')⟩]
      exact ⟨_, rfl, rfl, rfl, hL⟩

/-- Changing the instance path gives the composed classes of the changed graph. -/
theorem setInstance_ok (hp : Pathed nodes) {inst inst' : Nat → Option Nat} {P P' : Nat → Prop}
    (h : Composed g nodes specs inst P links) {ns : List Str} {c : Nat} (hN : Names ns) (hne : ns ≠ [])
    (hc : (render ns, c) ∈ nodes)
    (hnone : ∀ c, P' c → inst' c = none)
    (hup : ∀ ns c a, Names ns → (render ns, c) ∈ nodes → P' c → nearestAbove nodes ns = some a → P' a)
    (hsrc : ∀ p c b, (p, c) ∈ nodes → inst' c = some b → P' b ∧ ∃ q, (q, b) ∈ nodes)
    (hother : ∀ p d, (p, d) ∈ nodes → d ≠ c → inst' d = inst d) {old new : Option Str} (hold : inst c = old.bind (fun o => get? o nodes))
    (hnew : inst' c = sourceNode nodes new) {dependants : List Nat}
    (hdep : ∀ d ∈ dependants, (∃ p, (p, d) ∈ nodes) ∧ inst d = some c ∧ inst' d = some c) :
    ∃ g' links', setInstance nodes g c (render ns) (parentText ns) old new dependants = .ok g' ∧
      g'.own = g.own ∧ g'.size = g.size ∧ Composed g' nodes specs inst' P' links' := by
  -- the old source
  obtain ⟨nw, h1, h2⟩ : ∃ nw, unlink nodes g c (render ns) old =
        .ok (withBases g c (specs c ++ nw)) ∧
      (nw = (nearestAbove nodes ns).toList ∨ (nw = [] ∧ (inst c).isSome)) := by
    have hsame : inst c = none → (.ok g : Except Err Classes) =
        .ok (withBases g c (specs c ++ (nearestAbove nodes ns).toList)) := by
      intro hi
      have := h.exact ns c hN hc
      rw [hi] at this
      rw [show (nearestAbove nodes ns).toList = links c from this.symm, ← (h.laid.comp _ c hc).2.2, withBases_same]
    cases old with
    | none => exact ⟨_, hsame hold, Or.inl rfl⟩
    | some o =>
      simp only [unlink]
      split
      · rename_i ho
        have : get? o nodes = none := by
          cases hg : get? o nodes with
          | none => rfl
          | some b =>
            obtain ⟨m, _, hm⟩ := hp _ b (mem_of_get? hg)
            rw [ho] at hm
            exact absurd hm.symm (render_nonempty m)
        exact ⟨_, hsame (by rw [hold]; exact this), Or.inl rfl⟩
      · exact uncomp_ok hp h hN hne hc hold
  have h3 := parent_ok hp h hN hc h2
  have hlink : ∀ d ∈ (nearestAbove nodes ns).toList, ∃ q, (q, d) ∈ nodes := by
    intro d hd
    obtain ⟨q, _, _, hq, _⟩ := nearestAbove_mem hN (b := d) (by simpa using hd)
    exact ⟨_, hq⟩
  have hL := Laid.withBases h.laid hc hlink
  have hpl : PlainLinks nodes inst' P' (fun d => if d = c then (nearestAbove nodes ns).toList else links d) := by
    refine ⟨hnone, hup, hsrc, fun ns' c' hN' hc' => ?_⟩
    by_cases hcc : c' = c
    · subst hcc
      have := Path.render_inj hN' hN (h.laid.inj _ _ _ hc' hc)
      subst this
      exact Or.inl (by simp)
    · simp only [if_neg hcc]
      rw [hother _ c' hc' hcc]
      exact exact_alt (h.exact ns' c' hN' hc')
  obtain ⟨g', h4, h5, h6, h7⟩ := source_ok hp hL hpl hN hc (by simp)
  have hcomp : Composed g' nodes specs inst' P'
      (fun d => if d = c then exactLinks nodes ns (inst' c) else links d) := by
    refine ⟨?_, hnone, hup, hsrc, fun ns' c' hN' hc' => ?_⟩
    · have e : (fun d => if d = c then exactLinks nodes ns (inst' c) else
          if d = c then (nearestAbove nodes ns).toList else links d) =
          (fun d => if d = c then exactLinks nodes ns (inst' c) else links d) := by
        funext d; split <;> rfl
      rw [← e]; exact h7
    · by_cases hcc : c' = c
      · subst hcc
        have := Path.render_inj hN' hN (h.laid.inj _ _ _ hc' hc)
        subst this
        simp
      · simp only [if_neg hcc]
        rw [hother _ c' hc' hcc]
        exact h.exact ns' c' hN' hc'
  have hdeps : ∀ ds : List Nat, (∀ d ∈ ds, (∃ p, (p, d) ∈ nodes) ∧ inst' d = some c) →
      ds.foldlM (fun g d => addArc g d (some c)) g' = Except.ok g' := by
    intro ds
    induction ds with
    | nil => intro _; rfl
    | cons d ds ih =>
      intro hd
      obtain ⟨⟨p, hpd⟩, hi⟩ := hd d List.mem_cons_self
      obtain ⟨ms, hM, rfl⟩ := hp p d hpd
      have hb : c ∈ g'.bases d := by
        rw [(hcomp.laid.comp _ d hpd).2.2, hcomp.exact ms d hM hpd, hi, exactLinks]; simp
      rw [List.foldlM_cons]
      have : addArc g' d (some c) = .ok g' := by
        simp only [addArc]
        unfold Classes.safeAddBase
        rw [if_pos hb]
      rw [this]
      exact ih (fun d hd' => hd d (List.mem_cons_of_mem _ hd'))
  refine ⟨g', _, ?_, h5, h6, hcomp⟩
  unfold setInstance
  rw [h1]
  show recomp nodes (withBases g c (specs c ++ nw)) c (parentText ns) new dependants = _
  unfold recomp
  rw [h3]
  show (addArc _ c (sourceNode nodes new) >>= _) = _
  rw [← hnew, h4]
  exact hdeps dependants fun d hd => ⟨(hdep d hd).1, (hdep d hd).2.2⟩

/-- Composing a graph whose instance sources are plain. -/
theorem composed {g : Classes} {nodes : Dict Str Nat} {specs : Nat → List Nat}
    (h : Laid g nodes specs (fun _ => [])) (hp : Pathed nodes)
    (hpar : ∀ ns c, Names ns → (render ns, c) ∈ nodes →
      firstTable A_PARENT (tablesOf g specs c) = some (.str (parentText ns)))
    (hins : ∀ p c, (p, c) ∈ nodes → (firstTable A_INSTANCE (tablesOf g specs c)).isSome)
    (hplain : ∀ p c b, (p, c) ∈ nodes → instSource g nodes specs c = some b → Plain g nodes specs b)
    {order : List (Str × Nat)} (ho : order.Perm nodes) : ∃ g' links, postProxy nodes order g = some g' ∧
      (∀ d k, ¬ Touched k → get? k (g'.own d) = get? k (g.own d)) ∧
      Composed g' nodes specs (instSource g nodes specs) (Plain g nodes specs) links := by
  have hnd : order.Nodup := ho.nodup_iff.2 ((List.pairwise_map.1 h.ok).imp fun hne he => hne (congrArg Prod.fst he))
  obtain ⟨g1, h1, h2, h3, links1, h4, h5⟩ := parents_fold (g0 := g) hp hpar order [] g
    (fun x hx => ho.mem_iff.1 hx) (by simpa using hnd) ⟨rfl, rfl, _, h, fun ns c _ _ => by simp⟩
  have hlinks : ∀ ns c, Names ns → (render ns, c) ∈ nodes → links1 c = (nearestAbove nodes ns).toList := by
    intro ns c hN hc
    rw [h5 ns c hN hc, if_pos (by simpa using ho.mem_iff.2 hc)]
  have ht : tablesOf g1 specs = tablesOf g specs := by funext d; unfold tablesOf; rw [h2]
  have hi : instSource g1 nodes specs = instSource g nodes specs := by
    funext c; unfold instSource; rw [ht]
  have hup : ∀ ns c a, Names ns → (render ns, c) ∈ nodes → Plain g nodes specs c → nearestAbove nodes ns = some a →
      Plain g nodes specs a := by
    intro ns c a hN hc hP hn
    have hca : Draws g nodes specs c a := .one (.parent hN hc hn)
    exact ⟨hP.2 a hca, fun d hd => hP.2 d (.more (.parent hN hc hn) hd)⟩
  obtain ⟨g', links', hg', hdone⟩ := plain_fold (g1 := g1) (P := Plain g nodes specs) hp (by rw [ht]; exact hins) order [] g1 links1
    (fun x hx => ho.mem_iff.1 hx) (by simpa using hnd)
    ⟨h4, fun _ _ _ => rfl, by
      rw [hi]
      exact ⟨fun c hc => hc.1, hup, fun p c b hc hb => ⟨hplain p c b hc hb, instSource_mem hb⟩,
        fun ns c hN hc => Or.inl (hlinks ns c hN hc)⟩, fun ns c hN hc _ => hlinks ns c hN hc, fun _ _ _ _ h => nomatch h⟩
  refine ⟨g', links', by unfold postProxy; rw [h1, Option.bind_some, hg'], ?_, hdone.laid, ?_, ?_, ?_, ?_⟩
  · intro d k hk; rw [hdone.own d k hk, h2]
  · exact fun c hc => hc.1
  · exact hup
  · exact fun p c b hc hb => ⟨hplain p c b hc hb, instSource_mem hb⟩
  · intro ns c hN hc
    rw [← hi]
    exact hdone.yes ns c hN hc (by simpa using ho.mem_iff.2 hc)

theorem setBases_size {g g' : Classes} {c : Nat} {bs : List Nat} (h : g.setBases c bs = some g') : g'.size = g.size := by
  rw [(setBases_eq.1 h).1]; rfl

theorem fold_size {f : Classes → Str × Nat → Option Classes} (hf : ∀ g pc g', f g pc = some g' → g'.size = g.size) :
    ∀ (order : List (Str × Nat)) (g g' : Classes), order.foldlM f g = some g' → g'.size = g.size := by
  intro order
  induction order with
  | nil => intro g g' h; cases h; rfl
  | cons pc order ih =>
    intro g g' h
    rw [List.foldlM_cons] at h
    cases h1 : f g pc with
    | none => rw [h1] at h; cases h
    | some g1 =>
      rw [h1] at h
      rw [ih g1 g' h, hf g pc g1 h1]

theorem postProxy_size {nodes : Dict Str Nat} {order : List (Str × Nat)} {g g' : Classes}
    (h : postProxy nodes order g = some g') : g'.size = g.size := by
  unfold postProxy at h
  cases h1 : order.foldlM (parentArc nodes) g with
  | none => rw [h1] at h; cases h
  | some g1 =>
    rw [h1, Option.bind_some] at h
    rw [fold_size ?_ order g1 g' h, fold_size ?_ order g g1 h1]
    · intro g pc g' hs
      unfold parentArc at hs
      split at hs
      · split at hs
        · cases hs; rfl
        · split at hs
          · cases hs; rfl
          · exact setBases_size hs
      · cases hs; rfl
    · intro g pc g' hs
      unfold instanceArc at hs
      split at hs
      · split at hs
        · cases hs; rfl
        · split at hs
          · cases hs; rfl
          · rename_i b _
            have := (overload_same pc.1 pc.2 b OVERLOAD g).1
            rw [← this]
            generalize OVERLOAD.foldl (overloadAttr pc.1 pc.2 b) g = g2 at hs ⊢
            unfold Classes.safeAddBase at hs
            split at hs
            · cases hs; rfl
            · split at hs
              · exact setBases_size hs
              · exact setBases_size hs
      · cases hs; rfl

/-- The same bases give the same orders. -/
theorem lin_congr {g g' : Classes} (hcl : Closed g) (hb : ∀ d < g.size, g'.bases d = g.bases d) {c : Nat} {l : List Nat}
    (h : Lin g c l) : c < g.size → Lin g' c l := by
  refine Lin.induct (P := fun c l => c < g.size → Lin g' c l) ?_ h
  intro c l hl hbs _ hc
  obtain ⟨ls, m, h1, h2, rfl⟩ := hl.bases
  refine Lin.of_bases (ls := ls) ?_ (by rw [hb c hc]; exact h2)
  rw [hb c hc]
  refine h1.imp_mem fun a ha lb _ hlb => ?_
  obtain ⟨lb', h3, h4⟩ := hbs a ha
  rw [hlb.det h3]
  exact h4 (hcl c hc a ha)

/-- Two composed graphs with the same links have the same bases. -/
theorem same_bases {g g' : Classes} {inst : Nat → Option Nat} {P P' : Nat → Prop} {links links' : Nat → List Nat}
    (hp : Pathed nodes) (h : Composed g nodes specs inst P links) (h' : Composed g' nodes specs inst P' links')
    (hs : g'.size = g.size) : ∀ d < g.size, g'.bases d = g.bases d := by
  intro d hd
  by_cases hn : ∃ p, (p, d) ∈ nodes
  · obtain ⟨p, hpd⟩ := hn
    obtain ⟨ns, hN, rfl⟩ := hp p d hpd
    rw [(h.laid.comp _ d hpd).2.2, (h'.laid.comp _ d hpd).2.2, h.exact ns d hN hpd, h'.exact ns d hN hpd]
  · by_cases h0 : d = 0
    · subst h0; rw [h.laid.root, h'.laid.root]
    · rw [h.laid.others d hd h0 (fun q hq => hn ⟨q, hq⟩), h'.laid.others d (by omega) h0 (fun q hq => hn ⟨q, hq⟩)]

theorem Composed.orders (hp : Pathed nodes) {inst : Nat → Option Nat} {P : Nat → Prop}
    (h : Composed g nodes specs inst P links) : Orders g nodes :=
  Laid.plain_orders h.laid hp ⟨h.none, h.up, h.source, fun ns c hN hc => exact_alt (h.exact ns c hN hc)⟩

/-- ... and the same attributes. -/
theorem same_attr {g g' : Classes} {inst : Nat → Option Nat} {P P' : Nat → Prop} {links links' : Nat → List Nat}
    (hp : Pathed nodes) (h : Composed g nodes specs inst P links) (h' : Composed g' nodes specs inst P' links')
    (hs : g'.size = g.size) {k : Str} (hk : ∀ d < g.size, get? k (g'.own d) = get? k (g.own d)) {p : Str} {c : Nat}
    (hc : (p, c) ∈ nodes) : g'.attr? c k = g.attr? c k := by
  obtain ⟨l, hl⟩ := h.orders hp p c hc
  have hlt := (h.laid.comp p c hc).2.1
  have hl' := lin_congr (Laid.closed h.laid) (same_bases hp h h' hs) hl hlt
  unfold Classes.attr?
  rw [(Laid.mro_iff h.laid hlt).2 hl, (Laid.mro_iff h'.laid (by omega)).2 hl', Option.bind_some, Option.bind_some]
  have hin : ∀ d ∈ l, d < g.size := by
    obtain ⟨f, hf⟩ := hl
    exact lin_lt (Laid.closed h.laid) hlt hf
  clear hl hl'
  induction l with
  | nil => rfl
  | cons d l ih =>
    rw [List.findSome?_cons, List.findSome?_cons, hk d (hin d List.mem_cons_self),
      ih fun x hx => hin x (List.mem_cons_of_mem _ hx)]

/-- The bases of composed classes as paths. -/
theorem Composed.stands (hp : Pathed nodes) {inst : Nat → Option Nat} {P : Nat → Prop}
    (h : Composed g nodes specs inst P links) : Stands g nodes specs inst := by
  intro ns c hN hc
  have hb := (h.laid.comp _ c hc).2.2
  have hx := h.exact ns c hN hc
  have hnear : (nearestAbove nodes ns).toList = (nearestNs nodes ns).toList.filterMap (fun q => get? (render q) nodes) := by
    rw [nearestAbove_eq]
    cases hq : nearestNs nodes ns with
    | none => rfl
    | some q =>
      obtain ⟨e, he⟩ := Option.isSome_iff_exists.1 (nearestNs_prefix hq).2.2.1
      simp [he]
  refine ⟨fun hi => ?_, fun src b hS hsb hi => ?_⟩
  · rw [hb, hx, hi, exactLinks, hnear]; rfl
  · rw [hb, hx, hi, exactLinks, linkedTo, List.filterMap_append]
    congr 1
    have hgb := get?_of_mem h.laid.ok hsb
    rw [show [src].filterMap (fun q => get? (render q) nodes) = [b] by simp [hgb]]
    congr 1
    rw [nearestAbove_eq]
    cases hq : nearestNs nodes ns with
    | none => rfl
    | some q =>
      obtain ⟨hne, h1, h2, _⟩ := nearestNs_prefix hq
      obtain ⟨e, he⟩ := Option.isSome_iff_exists.1 h2
      have hQ : Names q := fun x hx => hN x ((h1.trans (List.dropLast_prefix ns)).subset hx)
      have hu := up_iff h.laid.ok hp h.laid.inj (src.length + 1) src b q e (by omega) hS hsb hQ (mem_of_get? he)
      simp only [Option.toList, Option.bind_some, he]
      by_cases hpre : q <+: src
      · have := List.isPrefixOf_iff_prefix.2 hpre
        simp [hu.2 hpre, this]
      · have hn : ¬ q.isPrefixOf src = true := fun hh => hpre (List.isPrefixOf_iff_prefix.1 hh)
        have hnu : ¬ Up nodes b e := fun hh => hpre (hu.1 hh)
        simp [hnu, hn, he]

end Nxt.Reinstance
