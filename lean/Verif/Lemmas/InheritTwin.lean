import Verif.Lemmas.InheritInst
/-!
# Lemmas about two compositions of the same nodes under different class numbers
-/
namespace Nxt.Mro
open Inherit

variable {α β : Type} [DecidableEq α] [DecidableEq β]

/-- Related at most one to one. -/
def OneToOne (R : α → β → Prop) : Prop := ∀ a b a' b', R a b → R a' b' → (a = a' ↔ b = b')

theorem _root_.Nxt.Inherit.Each.length_eq {α β : Type} {R : α → β → Prop} {as : List α} {bs : List β} (h : Each R as bs) :
    as.length = bs.length := by
  induction h with
  | nil => rfl
  | cons _ _ ih => simp [ih]

theorem _root_.Nxt.Inherit.Each.mem_iff {R : α → β → Prop} (hR : OneToOne R) {as : List α} {bs : List β} (h : Each R as bs) {a : α} {b : β}
    (hab : R a b) : a ∈ as ↔ b ∈ bs := by
  induction h with
  | nil => simp
  | cons h1 _ ih => rw [List.mem_cons, List.mem_cons, ih, hR _ _ _ _ hab h1]

theorem _root_.Nxt.Inherit.Each.tail {α β : Type} {R : α → β → Prop} {as : List α} {bs : List β} (h : Each R as bs) :
    Each R as.tail bs.tail := by
  cases h with
  | nil => exact .nil
  | cons _ h => exact h

theorem each_map {α β γ δ : Type} {R : α → β → Prop} {S : γ → δ → Prop} {f : α → γ} {g : β → δ} {as : List α} {bs : List β}
    (h : Each R as bs) (hfg : ∀ a b, R a b → S (f a) (g b)) : Each S (as.map f) (bs.map g) := by
  induction h with
  | nil => exact .nil
  | cons h1 _ ih => exact .cons (hfg _ _ h1) ih

theorem each_forall {α β : Type} {R : α → β → Prop} {P : α → Prop} {Q : β → Prop} {as : List α} {bs : List β}
    (h : Each R as bs) (hPQ : ∀ a b, R a b → (P a ↔ Q b)) : (∀ a ∈ as, P a) ↔ ∀ b ∈ bs, Q b := by
  induction h with
  | nil => simp
  | cons h1 _ ih => rw [List.forall_mem_cons, List.forall_mem_cons, ih, hPQ _ _ h1]

/-- Both nothing, or both something and related. -/
inductive Both {α β : Type} (R : α → β → Prop) : Option α → Option β → Prop
  | none : Both R none none
  | some {a : α} {b : β} : R a b → Both R (some a) (some b)

theorem pick_each {R : α → β → Prop} (hR : OneToOne R) {all : List (List α)} {all' : List (List β)}
    (ha : Each (Each R) all all') {ls : List (List α)} {ls' : List (List β)} (h : Each (Each R) ls ls') :
    Both R (pick all ls) (pick all' ls') := by
  induction h with
  | nil => exact .none
  | cons h1 _ ih =>
    cases h1 with
    | nil => exact ih
    | @cons a b _ _ hab _ =>
      have : (∀ l ∈ all, a ∉ l.tail) ↔ ∀ l ∈ all', b ∉ l.tail :=
        each_forall ha fun l l' hl => not_congr (hl.tail.mem_iff hR hab)
      unfold pick
      by_cases hc : ∀ l ∈ all, a ∉ l.tail
      · rw [if_pos hc, if_pos (this.1 hc)]; exact .some hab
      · rw [if_neg hc, if_neg (fun h => hc (this.2 h))]; exact ih

theorem strip_each {R : α → β → Prop} (hR : OneToOne R) {a : α} {b : β} (hab : R a b) {l : List α} {l' : List β}
    (h : Each R l l') : Each R (strip a l) (strip b l') := by
  unfold strip
  cases h with
  | nil => simpa using Each.nil
  | @cons x y _ _ hxy ht =>
    simp only [List.head?_cons, Option.some.injEq, List.tail_cons]
    by_cases hx : x = a
    · rw [if_pos hx, if_pos ((hR _ _ _ _ hxy hab).1 hx)]; exact ht
    · rw [if_neg hx, if_neg (fun e => hx ((hR _ _ _ _ hxy hab).2 e))]; exact .cons hxy ht

theorem mergeLoop_each {R : α → β → Prop} (hR : OneToOne R) (f : Nat) : ∀ {ls : List (List α)} {ls' : List (List β)},
    Each (Each R) ls ls' → Both (Each R) (mergeLoop f ls) (mergeLoop f ls') := by
  have hempty : ∀ {ls : List (List α)} {ls' : List (List β)}, Each (Each R) ls ls' →
      ((∀ l ∈ ls, l = []) ↔ ∀ l ∈ ls', l = []) := fun h => each_forall h fun l l' hl => by
    cases hl <;> simp
  induction f with
  | zero =>
    intro ls ls' h
    unfold mergeLoop
    by_cases hc : ∀ l ∈ ls, l = []
    · rw [if_pos hc, if_pos ((hempty h).1 hc)]; exact .some .nil
    · rw [if_neg hc, if_neg (fun e => hc ((hempty h).2 e))]; exact .none
  | succ f ih =>
    intro ls ls' h
    unfold mergeLoop
    by_cases hc : ∀ l ∈ ls, l = []
    · rw [if_pos hc, if_pos ((hempty h).1 hc)]; exact .some .nil
    · rw [if_neg hc, if_neg (fun e => hc ((hempty h).2 e))]
      have hp := pick_each hR h h
      generalize pick ls ls = x at hp
      generalize pick ls' ls' = y at hp
      cases hp with
      | none => exact .none
      | @some a b hab =>
        have := ih (each_map (f := strip a) (g := strip b) h fun l l' hl => strip_each hR hab hl)
        simp only
        generalize mergeLoop f (ls.map (strip a)) = x at this
        generalize mergeLoop f (ls'.map (strip b)) = y at this
        cases this with
        | none => exact .none
        | some h => exact .some (.cons hab h)

/-- The merge does not depend on what the classes are called. -/
theorem merge_each {R : α → β → Prop} (hR : OneToOne R) {ls : List (List α)} {ls' : List (List β)}
    (h : Each (Each R) ls ls') : Both (Each R) (merge ls) (merge ls') := by
  unfold merge
  have : (ls.map List.length).sum = (ls'.map List.length).sum := by
    induction h with
    | nil => rfl
    | cons h1 _ ih => simp [ih, Each.length_eq h1]
  rw [this]
  exact mergeLoop_each hR _ h

end Nxt.Mro

namespace Nxt.Inherit
open Dict NodeData Mro Spec

/-- The same class in two compositions: `Node`, the composite node of a path, or the spec of a path with the
same number. -/
inductive Twin (nodes nodes' : Dict Str Nat) (specs specs' : Nat → List Nat) : Nat → Nat → Prop
  | root : Twin nodes nodes' specs specs' 0 0
  | comp {p : Str} {c c' : Nat} : (p, c) ∈ nodes → (p, c') ∈ nodes' → Twin nodes nodes' specs specs' c c'
  | spec {p : Str} {c c' i s s' : Nat} : (p, c) ∈ nodes → (p, c') ∈ nodes' → (specs c)[i]? = some s →
      (specs' c')[i]? = some s' → Twin nodes nodes' specs specs' s s'

/-- Two compositions of the same nodes. -/
structure Twins (g g' : Classes) (nodes nodes' : Dict Str Nat) (specs specs' : Nat → List Nat) : Prop where
  left : Laid g nodes specs (fun _ => [])
  right : Laid g' nodes' specs' (fun _ => [])
  paths : ∀ p, (get? p nodes).isSome = (get? p nodes').isSome
  count : ∀ p c c', (p, c) ∈ nodes → (p, c') ∈ nodes' → (specs c).length = (specs' c').length
  source : ∀ p c c', (p, c) ∈ nodes → (p, c') ∈ nodes' →
    Both (Twin nodes nodes' specs specs') (instSource g nodes specs c) (instSource g' nodes' specs' c')

variable {g g' : Classes} {nodes nodes' : Dict Str Nat} {specs specs' : Nat → List Nat}

theorem Twin.symm {c c' : Nat} (h : Twin nodes nodes' specs specs' c c') : Twin nodes' nodes specs' specs c' c := by
  cases h with
  | root => exact .root
  | comp h1 h2 => exact .comp h2 h1
  | spec h1 h2 h3 h4 => exact .spec h2 h1 h4 h3

theorem Twins.symm (h : Twins g g' nodes nodes' specs specs') : Twins g' g nodes' nodes specs' specs where
  left := h.right
  right := h.left
  paths := fun p => (h.paths p).symm
  count := fun p c c' h1 h2 => (h.count p c' c h2 h1).symm
  source := fun p c c' h1 h2 => by
    have := h.source p c' c h2 h1
    generalize instSource g nodes specs c' = x at this
    generalize instSource g' nodes' specs' c = y at this
    cases this with
    | none => exact .none
    | some h => exact .some h.symm

/-- A class has at most one twin. -/
theorem Twin.unique {links links' : Nat → List Nat} {h h' : Classes} (hl : Laid h nodes specs links) (hr : Laid h' nodes' specs' links')
    {a b b' : Nat} (h1 : Twin nodes nodes' specs specs' a b) (h2 : Twin nodes nodes' specs specs' a b') : b = b' := by
  have mem : ∀ {c i s : Nat}, (specs c)[i]? = some s → s ∈ specs c := fun h => List.mem_of_getElem? h
  cases h1 with
  | root =>
    cases h2 with
    | root => rfl
    | comp h3 _ => exact absurd (hl.comp _ _ h3).1 (Nat.lt_irrefl 0)
    | spec h3 _ h4 _ => exact absurd (hl.spec _ _ h3 _ (mem h4)).1 (Nat.lt_irrefl 0)
  | comp h3 h4 =>
    cases h2 with
    | root => exact absurd (hl.comp _ _ h3).1 (Nat.lt_irrefl 0)
    | comp h5 h6 =>
      obtain rfl := hl.inj _ _ _ h3 h5
      exact Option.some.inj ((get?_of_mem hr.ok h4).symm.trans (get?_of_mem hr.ok h6))
    | spec h5 _ h6 _ => exact absurd h3 ((hl.spec _ _ h5 _ (mem h6)).2.2.2 _)
  | @spec p c c' i s s' h3 h4 h5 h6 =>
    cases h2 with
    | root => exact absurd (hl.spec _ _ h3 _ (mem h5)).1 (Nat.lt_irrefl 0)
    | comp h7 _ => exact absurd h7 ((hl.spec _ _ h3 _ (mem h5)).2.2.2 _)
    | @spec q d d' j t t' h7 h8 h9 h10 =>
      obtain rfl := hl.disjoint _ _ _ _ h3 h7 _ (mem h5) (mem h9)
      obtain rfl := hl.inj _ _ _ h3 h7
      have e : c' = d' := Option.some.inj ((get?_of_mem hr.ok h4).symm.trans (get?_of_mem hr.ok h8))
      subst e
      have hn := hl.nodup _ _ h3
      obtain ⟨hi, e5⟩ := List.getElem?_eq_some_iff.1 h5
      obtain ⟨hj, e9⟩ := List.getElem?_eq_some_iff.1 h9
      have : i = j := by
        by_cases hij : i = j
        · exact hij
        · exfalso
          rcases Nat.lt_or_gt_of_ne hij with hlt | hlt
          · exact List.pairwise_iff_getElem.1 hn i j hi hj hlt (e5.trans e9.symm)
          · exact List.pairwise_iff_getElem.1 hn j i hj hi hlt (e9.trans e5.symm)
      subst this
      exact Option.some.inj (h6.symm.trans h10)

theorem twin_oneToOne {links links' : Nat → List Nat} {h h' : Classes} (hl : Laid h nodes specs links) (hr : Laid h' nodes' specs' links') :
    OneToOne (Twin nodes nodes' specs specs') := by
  intro a b a' b' h1 h2
  constructor
  · rintro rfl; exact Twin.unique hl hr h1 h2
  · rintro rfl; exact Twin.unique hr hl h1.symm h2.symm

theorem twin_both (hp : ∀ p, (get? p nodes).isSome = (get? p nodes').isSome) (p : Str) :
    Both (Twin nodes nodes' specs specs') (get? p nodes) (get? p nodes') := by
  have := hp p
  cases e : get? p nodes with
  | none =>
    rw [e] at this
    cases e' : get? p nodes' with
    | none => exact .none
    | some c' => rw [e'] at this; cases this
  | some c =>
    rw [e] at this
    cases e' : get? p nodes' with
    | none => rw [e'] at this; cases this
    | some c' => exact .some (.comp (mem_of_get? e) (mem_of_get? e'))

theorem Twins.both (h : Twins g g' nodes nodes' specs specs') (p : Str) :
    Both (Twin nodes nodes' specs specs') (get? p nodes) (get? p nodes') := twin_both h.paths p

theorem Twins.near (h : Twins g g' nodes nodes' specs specs') (ns : List Str) :
    Both (Twin nodes nodes' specs specs') (nearestAbove nodes ns) (nearestAbove nodes' ns) := by
  cases ns with
  | nil => exact .none
  | cons n r =>
    show Both _ ((lineage (n :: r).dropLast).findSome? _) ((lineage (n :: r).dropLast).findSome? _)
    generalize lineage (n :: r).dropLast = ls
    induction ls with
    | nil => exact .none
    | cons q ls ih =>
      rw [List.findSome?_cons, List.findSome?_cons]
      have := h.both (render q)
      generalize get? (render q) nodes = x at this
      generalize get? (render q) nodes' = y at this
      cases this with
      | none => exact ih
      | some h => exact .some h

theorem Twins.specsEach (h : Twins g g' nodes nodes' specs specs') {p : Str} {c c' : Nat} (hc : (p, c) ∈ nodes)
    (hc' : (p, c') ∈ nodes') : Each (Twin nodes nodes' specs specs') (specs c) (specs' c') := by
  have ht := h.count p c c' hc hc'
  have key : ∀ (as bs : List Nat), as.length = bs.length → (∀ (i : Nat) (a b : Nat), as[i]? = some a → bs[i]? = some b →
      Twin nodes nodes' specs specs' a b) → Each (Twin nodes nodes' specs specs') as bs := by
    intro as
    induction as with
    | nil => intro bs hl _; cases bs with
      | nil => exact .nil
      | cons => simp at hl
    | cons a as ih =>
      intro bs hl hi
      cases bs with
      | nil => simp at hl
      | cons b bs =>
        exact .cons (hi 0 a b rfl rfl) (ih bs (by simpa using hl) fun i x y hx hy => hi (i + 1) x y (by simpa using hx) (by simpa using hy))
  exact key _ _ ht fun i a b ha hb => .spec hc hc' ha hb

/-- How a node is linked at the end, exactly. -/
theorem links_exact {links : Nat → List Nat} {gg : Classes} (hL : Laid gg nodes specs links) (hO : Orders gg nodes) {ns : List Str} {c b : Nat}
    (hN : Names ns) (hc : (render ns, c) ∈ nodes) (hb : ∃ q, (q, b) ∈ nodes)
    (hI : InstLinks gg (nearestAbove nodes ns) (some b) c (links c)) :
    ∃ lb, Lin gg b lb ∧ ((links c = [b] ∧ ∀ p, nearestAbove nodes ns = some p → p ∈ lb) ∨
      ∃ p, nearestAbove nodes ns = some p ∧ p ∉ lb ∧ links c = [p, b]) := by
  obtain ⟨q, hq⟩ := hb
  obtain ⟨l, hl⟩ := hO _ c hc
  obtain ⟨lb, hlb⟩ := hO q b hq
  refine ⟨lb, hlb, ?_⟩
  rcases hI with ⟨h1, h2⟩ | ⟨_, _, lb', hlb', h2 | ⟨p, h1, h3, h4⟩⟩
  · refine Or.inl ⟨h2, fun p hp => ?_⟩
    rw [h1] at hp; cases hp; exact hlb.self
  · cases hnear : nearestAbove nodes ns with
    | none =>
      rw [hnear] at h2
      exact Or.inl ⟨h2, fun p hp => nomatch hp⟩
    | some p =>
      rw [hnear] at h2
      obtain ⟨r, hr, _, hrp, _⟩ := nearestAbove_mem hN hnear
      obtain ⟨lp, hlp⟩ := hO _ p hrp
      exact Or.inr ⟨p, rfl, (Laid.lin_two hL hc hrp hq h2 hl hlp hlb).1, h2⟩
  · refine Or.inl ⟨h4, fun p' hp' => ?_⟩
    rw [h1] at hp'; cases hp'
    rw [hlb.det hlb']; exact h3

theorem each_orders {R : Nat → Nat → Prop} {gg gg' : Classes} : ∀ {bs bs' : List Nat} {ls ls' : List (List Nat)},
    Each (Lin gg) bs ls → Each (Lin gg') bs' ls' → Each R bs bs' →
    (∀ b ∈ bs, ∀ b' lb lb', R b b' → Lin gg b lb → Lin gg' b' lb' → Each R lb lb') → Each (Each R) ls ls' := by
  intro bs bs' ls ls' h1 h2 h3 h4
  induction h3 generalizing ls ls' with
  | nil => cases h1; cases h2; exact .nil
  | cons hab _ ih =>
    cases h1 with
    | cons h1 h1' => cases h2 with
      | cons h2 h2' =>
        exact .cons (h4 _ List.mem_cons_self _ _ _ hab h1 h2)
          (ih h1' h2' fun b hb => h4 b (List.mem_cons_of_mem _ hb))

/-- The resolution orders of the same node correspond, class by class. -/
theorem twin_orders (h : Twins g g' nodes nodes' specs specs') {h1 h1' : Classes} {links links' : Nat → List Nat}
    (hp : Pathed nodes)
    (hL : Laid h1 nodes specs links) (hO : Orders h1 nodes)
    (hI : ∀ ns c, Names ns → (render ns, c) ∈ nodes →
        InstLinks h1 (nearestAbove nodes ns) (instSource g nodes specs c) c (links c))
    (hL' : Laid h1' nodes' specs' links') (hO' : Orders h1' nodes')
    (hI' : ∀ ns c, Names ns → (render ns, c) ∈ nodes' →
        InstLinks h1' (nearestAbove nodes' ns) (instSource g' nodes' specs' c) c (links' c))
    {c : Nat} {l : List Nat} (hl : Lin h1 c l) :
    ∀ c' l', Twin nodes nodes' specs specs' c c' → Lin h1' c' l' → Each (Twin nodes nodes' specs specs') l l' := by
  have hone := twin_oneToOne hL hL'
  refine Lin.induct (g := h1) (P := fun c l => ∀ c' l', Twin nodes nodes' specs specs' c c' → Lin h1' c' l' →
    Each (Twin nodes nodes' specs specs') l l') ?_ hl
  intro c l hl ih _ c' l' ht hl'
  cases ht with
  | root =>
    rw [hl.det (Laid.lin_root hL), hl'.det (Laid.lin_root hL')]
    exact .cons .root .nil
  | @spec p c c' i s s' hc hc' hs hs' =>
    rw [hl.det (Laid.lin_other hL (hL.spec _ _ hc _ (List.mem_of_getElem? hs)).2.2.1),
      hl'.det (Laid.lin_other hL' (hL'.spec _ _ hc' _ (List.mem_of_getElem? hs')).2.2.1)]
    exact .cons (.spec hc hc' hs hs') (.cons .root .nil)
  | @comp p _ _ hc hc' =>
    obtain ⟨ns, hN, rfl⟩ := hp p c hc
    have hb := (hL.comp _ c hc).2.2
    have hb' := (hL'.comp _ c' hc').2.2
    have ihb : ∀ b ∈ h1.bases c, ∀ b' lb lb', Twin nodes nodes' specs specs' b b' → Lin h1 b lb → Lin h1' b' lb' →
        Each (Twin nodes nodes' specs specs') lb lb' := by
      intro b hbm b' lb lb' ht hlb hlb'
      obtain ⟨lb1, h2, h3⟩ := ih b hbm
      rw [hlb.det h2]
      exact h3 b' lb' ht hlb'
    have hlinks : Each (Twin nodes nodes' specs specs') (links c) (links' c') := by
      have i1 := hI ns c hN hc
      have i2 := hI' ns c' hN hc'
      have hi := h.source _ _ _ hc hc'
      have hn := h.near ns
      generalize hx : instSource g nodes specs c = x at hi i1
      generalize hy : instSource g' nodes' specs' c' = y at hi i2
      cases hi with
      | none =>
        have i1 : links c = (nearestAbove nodes ns).toList := i1
        have i2 : links' c' = (nearestAbove nodes' ns).toList := i2
        rw [i1, i2]
        generalize nearestAbove nodes ns = x at hn
        generalize nearestAbove nodes' ns = y at hn
        cases hn with
        | none => exact .nil
        | some h => exact .cons h .nil
      | @some b b' hbb =>
        obtain ⟨lb, hlb, e1⟩ := links_exact hL hO hN hc (instSource_mem hx) i1
        obtain ⟨lb', hlb', e2⟩ := links_exact hL' hO' hN hc' (instSource_mem hy) i2
        have hbm : b ∈ h1.bases c := by
          rw [hb]
          rcases e1 with ⟨e1, _⟩ | ⟨p, _, _, e1⟩ <;> rw [e1] <;> simp
        have hlbs := ihb b hbm b' lb lb' hbb hlb hlb'
        generalize nearestAbove nodes ns = x at hn e1
        generalize nearestAbove nodes' ns = y at hn e2
        cases hn with
        | none =>
          rcases e1 with ⟨e1, _⟩ | ⟨p, e, _⟩
          · rcases e2 with ⟨e2, _⟩ | ⟨p, e, _⟩
            · rw [e1, e2]; exact .cons hbb .nil
            · cases e
          · cases e
        | @some p p' hpp =>
          have hmem := hlbs.mem_iff hone hpp
          rcases e1 with ⟨e1, f1⟩ | ⟨q, e, f1, e1⟩
          · rcases e2 with ⟨e2, _⟩ | ⟨q, e, f2, e2⟩
            · rw [e1, e2]; exact .cons hbb .nil
            · cases e
              exact absurd (hmem.1 (f1 p rfl)) f2
          · cases e
            rcases e2 with ⟨e2, f2⟩ | ⟨q, e, f2, e2⟩
            · exact absurd (hmem.2 (f2 p' rfl)) f1
            · cases e
              rw [e1, e2]; exact .cons hpp (.cons hbb .nil)
    have hbases : Each (Twin nodes nodes' specs specs') (h1.bases c) (h1'.bases c') := by
      rw [hb, hb']; exact (h.specsEach hc hc').append hlinks
    obtain ⟨ls, m, k1, k2, rfl⟩ := hl.bases
    obtain ⟨ls', m', k1', k2', rfl⟩ := hl'.bases
    have hm := merge_each hone ((each_orders k1 k1' hbases ihb).append (.cons hbases .nil))
    rw [k2, k2'] at hm
    cases hm with
    | some hm => exact .cons (.comp hc hc') hm

/-- What the tables of the same node have in common, the same class has: `own` has it in front, the specs behind. -/
theorem twin_own {S : Dict Str Val → Dict Str Val → Prop} (hroot : S (g.own 0) (g'.own 0))
    (ht : ∀ p c c', (p, c) ∈ nodes → (p, c') ∈ nodes' → Each S (tablesOf g specs c) (tablesOf g' specs' c'))
    {c c' : Nat} (h : Twin nodes nodes' specs specs' c c') : S (g.own c) (g'.own c') := by
  cases h with
  | root => exact hroot
  | comp hc hc' =>
    have := ht _ _ _ hc hc'
    unfold tablesOf at this
    cases this with
    | cons h _ => exact h
  | spec hc hc' hs hs' =>
    have := ht _ _ _ hc hc'
    unfold tablesOf at this
    cases this with
    | cons _ h =>
      have key : ∀ (as bs : List Nat) (i s s' : Nat), Each S (as.map g.own) (bs.map g'.own) → as[i]? = some s →
          bs[i]? = some s' → S (g.own s) (g'.own s') := by
        intro as
        induction as with
        | nil => intro bs i s s' _ h; simp at h
        | cons a as ih =>
          intro bs i s s' he h1 h2
          cases bs with
          | nil => simp at h2
          | cons b bs =>
            simp only [List.map_cons] at he
            cases he with
            | cons h3 h4 =>
              cases i with
              | zero => simp at h1 h2; subst h1 h2; exact h3
              | succ i => exact ih bs i s s' h4 (by simpa using h1) (by simpa using h2)
      exact key _ _ _ _ _ h hs hs'

theorem each_refl {α : Type} {R : α → α → Prop} (hR : ∀ a, R a a) (l : List α) : Each R l l := by
  induction l with
  | nil => exact .nil
  | cons a l ih => exact .cons (hR a) ih

theorem findSome?_each {R : Nat → Nat → Prop} {γ : Type} {f f' : Nat → Option γ} {l l' : List Nat} (h : Each R l l')
    (hf : ∀ a b, R a b → f a = f' b) : l.findSome? f = l'.findSome? f' := by
  induction h with
  | nil => rfl
  | cons h1 _ ih => rw [List.findSome?_cons, List.findSome?_cons, hf _ _ h1, ih]

end Nxt.Inherit
