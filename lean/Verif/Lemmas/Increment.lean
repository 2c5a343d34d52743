import Verif.Spec.Increment
import Verif.Lemmas.Inherit
import Verif.Lemmas.Targeted
import Verif.Lemmas.Dict
/-!
# Lemmas about nodes added to a composed stage
-/
namespace Nxt.Increment
open Dict NodeData Mro Inherit Spec

/-! ### Layers with indices -/

/-- The nodes at a path, counted from `k`. -/
def stackFrom (k : Nat) (layers : List Comp.LayerNodes) (p : Str) : List (Nat × Dict Str Val) :=
  (layers.zipIdx k).filterMap (fun l => (get? p l.1).map (fun n => (l.2, n)))

theorem stackFrom_cons (k : Nat) (l : Comp.LayerNodes) (layers : List Comp.LayerNodes) (p : Str) :
    stackFrom k (l :: layers) p = ((get? p l).map (fun n => (k, n))).toList ++ stackFrom (k + 1) layers p := by
  unfold stackFrom
  rw [List.zipIdx_cons, List.filterMap_cons]
  cases h : get? p l <;> simp [h]

theorem stackFrom_stack (layers : List Comp.LayerNodes) (p : Str) :
    ∀ k, (stackFrom k layers p).map Prod.snd = stack layers p := by
  induction layers with
  | nil => intro k; rfl
  | cons l layers ih =>
    intro k
    rw [stackFrom_cons, List.map_append, ih]
    unfold stack
    rw [List.filterMap_cons]
    cases h : get? p l <;> simp

theorem stackFrom_ge (layers : List Comp.LayerNodes) (p : Str) :
    ∀ k, ∀ x ∈ stackFrom k layers p, k ≤ x.1 ∧ ∃ l, layers[x.1 - k]? = some l ∧ get? p l = some x.2 := by
  induction layers with
  | nil => intro k x h; exact nomatch h
  | cons l layers ih =>
    intro k x h
    rw [stackFrom_cons, List.mem_append] at h
    rcases h with h | h
    · cases hg : get? p l with
      | none => rw [hg] at h; exact nomatch h
      | some n =>
        rw [hg] at h
        rw [show x = (k, n) by simpa using h]
        exact ⟨Nat.le_refl _, l, by simp, hg⟩
    · obtain ⟨h1, m, h2, h3⟩ := ih (k + 1) x h
      refine ⟨by omega, m, ?_, h3⟩
      rw [show x.1 - k = (x.1 - (k + 1)) + 1 by omega, List.getElem?_cons_succ]
      exact h2

theorem stackFrom_mem (layers : List Comp.LayerNodes) (p : Str) (l : Comp.LayerNodes) (n : Dict Str Val)
    (hn : get? p l = some n) : ∀ k j, layers[j]? = some l → (k + j, n) ∈ stackFrom k layers p := by
  induction layers with
  | nil => intro k j h; simp at h
  | cons m layers ih =>
    intro k j h
    rw [stackFrom_cons, List.mem_append]
    cases j with
    | zero =>
      simp only [List.getElem?_cons_zero, Option.some.injEq] at h
      subst h
      left; rw [hn]; simp
    | succ j =>
      rw [List.getElem?_cons_succ] at h
      right
      have := ih (k + 1) j h
      rwa [show k + 1 + j = k + (j + 1) by omega] at this

theorem stackFrom_sorted (layers : List Comp.LayerNodes) (p : Str) :
    ∀ k, (stackFrom k layers p).Pairwise (fun a b => a.1 < b.1) := by
  induction layers with
  | nil => intro k; exact .nil
  | cons l layers ih =>
    intro k
    rw [stackFrom_cons, List.pairwise_append]
    refine ⟨?_, ih _, ?_⟩
    · cases get? p l <;> simp
    · intro a ha b hb
      have := (stackFrom_ge layers p (k + 1) b hb).1
      cases hg : get? p l with
      | none => rw [hg] at ha; exact nomatch ha
      | some n =>
        rw [hg] at ha
        rw [show a = (k, n) by simpa using ha]
        show k < b.1
        omega

theorem stackFrom_other {p q : Str} (hne : q ≠ p) (n : Dict Str Val) (layers : List Comp.LayerNodes) :
    ∀ k i, stackFrom k (putSpec layers i p n) q = stackFrom k layers q := by
  induction layers with
  | nil => intro k i; simp [putSpec]
  | cons l layers ih =>
    intro k i
    cases i with
    | zero =>
      show stackFrom k (Dict.set p n l :: layers) q = _
      rw [stackFrom_cons, stackFrom_cons, get?_set, if_neg hne]
    | succ i =>
      show stackFrom k (l :: putSpec layers i p n) q = _
      rw [stackFrom_cons, stackFrom_cons, ih]

theorem stackFrom_same {p : Str} (n : Dict Str Val) (layers : List Comp.LayerNodes) :
    ∀ k i l, layers[i]? = some l → get? p l = none →
      stackFrom k (putSpec layers i p n) p =
        (stackFrom k layers p).filter (fun x => ¬ k + i < x.1) ++ (k + i, n) ::
          (stackFrom k layers p).filter (fun x => k + i < x.1) := by
  induction layers with
  | nil => intro k i l h; simp at h
  | cons m layers ih =>
    intro k i l h hl
    cases i with
    | zero =>
      simp only [List.getElem?_cons_zero, Option.some.injEq] at h
      subst h
      show stackFrom k (Dict.set p n m :: layers) p = _
      rw [stackFrom_cons, stackFrom_cons, get?_set, if_pos rfl, hl]
      have hall : ∀ x ∈ stackFrom (k + 1) layers p, k + 0 < x.1 := fun x hx => by
        have := (stackFrom_ge layers p (k + 1) x hx).1; omega
      simp only [Option.map_none, Option.toList_none, List.nil_append, Option.map_some, Option.toList_some]
      rw [List.filter_eq_nil_iff.2 (fun x hx => by simpa using hall x hx),
        List.filter_eq_self.2 (fun x hx => by simpa using hall x hx)]
      rfl
    | succ i =>
      rw [List.getElem?_cons_succ] at h
      show stackFrom k (m :: putSpec layers i p n) p = _
      rw [stackFrom_cons, stackFrom_cons, ih (k + 1) i l h hl, List.filter_append, List.filter_append]
      have e : k + 1 + i = k + (i + 1) := by omega
      rw [e]
      cases get? p m with
      | none => simp
      | some x => simp

theorem get?_map_self {l : List Str} {f : Str → Val} {a : Str} (h : a ∈ l) : get? a (l.map (fun x => (x, f x))) = some (f a) := by
  induction l with
  | nil => exact nomatch h
  | cons x l ih =>
    rw [List.map_cons]
    unfold get?
    by_cases e : x = a
    · subst e; simp
    · rw [if_neg e]
      exact ih ((List.mem_cons.1 h).resolve_left (fun h => e h.symm))

/-! ### More classes -/

/-- The order of a class stays when classes are added. -/
theorem lin_extend {g g' : Classes} (hc : ∀ d < g.size, ∀ b ∈ g.bases d, b < g.size)
    (he : ∀ d < g.size, g'.bases d = g.bases d) :
    ∀ f d l, d < g.size → lin g.bases f d = some l → lin g'.bases f d = some l := by
  intro f
  induction f with
  | zero => intro d l _ h; simp [lin] at h
  | succ f ih =>
    intro d l hd h
    unfold lin at h ⊢
    rw [he d hd]
    have : ∀ bs : List Nat, (∀ b ∈ bs, b < g.size) → ∀ ls, allSome (bs.map (lin g.bases f)) = some ls →
        allSome (bs.map (lin g'.bases f)) = some ls := by
      intro bs
      induction bs with
      | nil => intro _ ls h; exact h
      | cons b bs ihb =>
        intro hb ls h
        rw [List.map_cons] at h ⊢
        cases hl : lin g.bases f b with
        | none => rw [hl] at h; simp [allSome] at h
        | some lb =>
          rw [hl] at h
          rw [ih b lb (hb b List.mem_cons_self) hl]
          simp only [allSome, Option.map_eq_some_iff] at h ⊢
          obtain ⟨ls', h1, h2⟩ := h
          exact ⟨ls', ihb (fun b' hb' => hb b' (List.mem_cons_of_mem _ hb')) ls' h1, h2⟩
    cases ha : allSome ((g.bases d).map (lin g.bases f)) with
    | none => rw [ha] at h; simp at h
    | some ls =>
      rw [ha] at h
      rw [this _ (hc d hd) ls ha]
      exact h

theorem Lin.extend {g g' : Classes} (hc : ∀ d < g.size, ∀ b ∈ g.bases d, b < g.size)
    (he : ∀ d < g.size, g'.bases d = g.bases d) {d : Nat} {l : List Nat} (hd : d < g.size) (h : Lin g d l) : Lin g' d l := by
  obtain ⟨f, hf⟩ := h
  exact ⟨f, lin_extend hc he f d l hd hf⟩

theorem Lin.below {g : Classes} (hc : ∀ d < g.size, ∀ b ∈ g.bases d, b < g.size) {d : Nat} {l : List Nat}
    (h : Lin g d l) : d < g.size → ∀ x ∈ l, x < g.size := by
  refine Lin.induct (P := fun d l => d < g.size → ∀ x ∈ l, x < g.size) ?_ h
  intro d l _ hb hx hd x hxl
  rcases hx x hxl with rfl | ⟨b, hbm, lb, hlb, hxb⟩
  · exact hd
  · obtain ⟨lb', h1, h2⟩ := hb b hbm
    obtain rfl := hlb.det h1
    exact h2 (hc d hd b hbm) x hxb

/-- No base of the node is above a base of the new one. -/
theorem weakBases_all {g : Classes} {c b : Nat} (h : ∀ d ∈ g.bases c, ∀ e ∈ g.bases b, d ∉ (g.mro e).getD []) :
    g.weakBases c b = g.bases c := by
  unfold Classes.weakBases
  have : ∀ (l : List Nat) (w : List Nat), (∀ d ∈ l, d ∈ g.bases c) →
      l.foldl (fun weak d => (g.bases b).foldl (fun weak e =>
        if d ∈ (g.mro e).getD [] ∧ d ∈ weak then weak.erase d else weak) weak) w = w := by
    intro l
    induction l with
    | nil => intro w _; rfl
    | cons d l ih =>
      intro w hd
      rw [List.foldl_cons]
      have inner : ∀ (m : List Nat) (w : List Nat), (∀ e ∈ m, e ∈ g.bases b) →
          m.foldl (fun weak e => if d ∈ (g.mro e).getD [] ∧ d ∈ weak then weak.erase d else weak) w = w := by
        intro m
        induction m with
        | nil => intro w _; rfl
        | cons e m ihm =>
          intro w he
          rw [List.foldl_cons, if_neg (fun hh => h d (hd d List.mem_cons_self) e (he e List.mem_cons_self) hh.1)]
          exact ihm w fun e' he' => he e' (List.mem_cons_of_mem _ he')
      rw [inner _ w fun _ h => h]
      exact ih w fun d' hd' => hd d' (List.mem_cons_of_mem _ hd')
  exact this _ _ fun _ h => h

theorem Laid.congr {g g' : Classes} {nodes : Dict Str Nat} {specs links : Nat → List Nat} (h : Laid g nodes specs links)
    (hs : g'.size = g.size) (hb : g'.bases = g.bases) : Laid g' nodes specs links where
  ok := h.ok
  inj := h.inj
  root := by rw [hb]; exact h.root
  pos := by rw [hs]; exact h.pos
  comp := by rw [hs, hb]; exact h.comp
  link := h.link
  spec := by rw [hs, hb]; exact h.spec
  nonempty := h.nonempty
  nodup := h.nodup
  disjoint := h.disjoint
  others := by rw [hs, hb]; exact h.others

theorem Lin.congr {g g' : Classes} (hb : g'.bases = g.bases) {c : Nat} {l : List Nat} (h : Lin g c l) : Lin g' c l := by
  obtain ⟨f, hf⟩ := h
  exact ⟨f, by rw [hb]; exact hf⟩

/-- A new composite node with one spec. -/
theorem laid_addNode {g : Classes} {nodes : Dict Str Nat} {specs links : Nat → List Nat} (h : Laid g nodes specs links)
    (p : Str) (own t : Dict Str Val) (hp : get? p nodes = none) :
    Laid (addNode g own [t]) (Dict.set p g.size nodes) (fun d => if d = g.size then [g.size + 1] else specs d)
      (fun d => if d = g.size then [] else links d) := by
  have hset : Dict.set p g.size nodes = nodes ++ [(p, g.size)] := set_of_not_mem (get?_eq_none.1 hp)
  have old : ∀ d < g.size, (addNode g own [t]).bases d = g.bases d := fun d hd => by simp [addNode, hd]
  have new : (addNode g own [t]).bases g.size = [g.size + 1] := by simp [addNode]
  have newS : (addNode g own [t]).bases (g.size + 1) = [0] := by
    simp only [addNode]
    rw [if_neg (by omega), if_neg (by omega), if_pos (by simp)]
  have hsize : (addNode g own [t]).size = g.size + 2 := rfl
  have hmem : ∀ q c, (q, c) ∈ Dict.set p g.size nodes ↔ (q, c) ∈ nodes ∨ (q = p ∧ c = g.size) := by
    intro q c; rw [hset]; simp
  have hlt : ∀ q c, (q, c) ∈ nodes → 0 < c ∧ c < g.size := fun q c hc => ⟨(h.comp q c hc).1, (h.comp q c hc).2.1⟩
  have hbelow : ∀ q c, (q, c) ∈ nodes → ∀ s ∈ specs c, s < g.size := fun q c hc s hs => (h.spec q c hc s hs).2.1
  have pos := h.pos
  refine ⟨ok_set h.ok _ _, ?_, ?_, ?_, ?_, ?_, ?_, ?_, ?_, ?_, ?_⟩
  · intro q r c hq hr
    rcases (hmem q c).1 hq with hq1 | ⟨hq1, hc⟩ <;> rcases (hmem r c).1 hr with hr1 | ⟨hr1, hc'⟩
    · exact h.inj q r c hq1 hr1
    · have := hlt q c hq1; omega
    · have := hlt r c hr1; omega
    · rw [hq1, hr1]
  · rw [old 0 pos]; exact h.root
  · rw [hsize]; omega
  · intro q c hq
    rcases (hmem q c).1 hq with hq | ⟨rfl, rfl⟩
    · have hl := hlt q c hq
      rw [if_neg (by omega), if_neg (by omega), old c hl.2]
      exact ⟨hl.1, by omega, (h.comp q c hq).2.2⟩
    · rw [if_pos rfl, if_pos rfl, new]
      exact ⟨pos, by omega, rfl⟩
  · intro q c hq b hb
    rcases (hmem q c).1 hq with hq | ⟨rfl, rfl⟩
    · have hl := hlt q c hq
      rw [if_neg (by omega)] at hb
      obtain ⟨r, hr⟩ := h.link q c hq b hb
      exact ⟨r, (hmem r b).2 (.inl hr)⟩
    · rw [if_pos rfl] at hb; exact nomatch hb
  · intro q c hq s hs
    rcases (hmem q c).1 hq with hq | ⟨rfl, rfl⟩
    · have hl := hlt q c hq
      rw [if_neg (by omega)] at hs
      obtain ⟨h1, h2, h3, h4⟩ := h.spec q c hq s hs
      refine ⟨h1, by omega, by rw [old s h2, h3], fun r hr => ?_⟩
      rcases (hmem r s).1 hr with hr | ⟨_, rfl⟩
      · exact h4 r hr
      · omega
    · rw [if_pos rfl, List.mem_singleton] at hs
      subst hs
      refine ⟨by omega, by omega, newS, fun r hr => ?_⟩
      rcases (hmem r _).1 hr with hr | ⟨_, hr⟩
      · have := hlt r _ hr; omega
      · omega
  · intro q c hq
    rcases (hmem q c).1 hq with hq | ⟨rfl, rfl⟩
    · have hl := hlt q c hq
      rw [if_neg (by omega)]; exact h.nonempty q c hq
    · rw [if_pos rfl]; simp
  · intro q c hq
    rcases (hmem q c).1 hq with hq | ⟨rfl, rfl⟩
    · have hl := hlt q c hq
      rw [if_neg (by omega)]; exact h.nodup q c hq
    · rw [if_pos rfl]; simp
  · intro q c r d hq hr s hsc hsd
    rcases (hmem q c).1 hq with hq | ⟨_, rfl⟩ <;> rcases (hmem r d).1 hr with hr | ⟨_, rfl⟩
    · have h1 := hlt q c hq
      have h2 := hlt r d hr
      rw [if_neg (by omega)] at hsc hsd
      exact h.disjoint q c r d hq hr s hsc hsd
    · have h1 := hlt q c hq
      rw [if_neg (by omega)] at hsc
      rw [if_pos rfl, List.mem_singleton] at hsd
      have := hbelow q c hq s hsc; omega
    · have h1 := hlt r d hr
      rw [if_neg (by omega)] at hsd
      rw [if_pos rfl, List.mem_singleton] at hsc
      have := hbelow r d hr s hsd; omega
    · rfl
  · intro s h1 h2 h3
    rw [hsize] at h1
    by_cases hd : s < g.size
    · rw [old s hd]
      exact h.others s hd h2 fun q hq => h3 q ((hmem q s).2 (Or.inl hq))
    · by_cases he : s = g.size
      · exact absurd ((hmem p s).2 (Or.inr ⟨rfl, he⟩)) (h3 p)
      · rw [show s = g.size + 1 by omega]; exact newS

/-! ### The lineage -/

theorem mem_lineage {ns q : List Str} : q ∈ lineage ns ↔ q <+: ns := by
  refine Legacy.snocInduct (P := fun ns => q ∈ lineage ns ↔ q <+: ns) ?_ ?_ ns
  · rw [lineage_nil]; simp
  · intro ns n ih
    rw [lineage_snoc, List.mem_cons, ih, List.prefix_concat_iff]

theorem nearestAbove_set {nodes : Dict Str Nat} {ns ms : List Str} (c : Nat) (hn : Names ns) (hm : Names ms)
    (h : ¬ ∃ m t, ms = ns ++ m :: t) : nearestAbove (Dict.set (render ns) c nodes) ms = nearestAbove nodes ms := by
  rcases Path.eq_nil_or_snoc ms with rfl | ⟨ms, m, rfl⟩
  · rfl
  · rw [nearestAbove_snoc, nearestAbove_snoc]
    have : ∀ q ∈ lineage ms, get? (render q) (Dict.set (render ns) c nodes) = get? (render q) nodes := by
      intro q hq
      rw [mem_lineage] at hq
      rw [get?_set, if_neg]
      intro e
      have hq' : Names q := fun x hx => hm x (List.mem_append_left _ (hq.subset hx))
      obtain rfl := Path.render_inj hq' hn e
      obtain ⟨t, rfl⟩ := hq
      cases t with
      | nil => exact h ⟨m, [], by simp⟩
      | cons x t => exact h ⟨x, t ++ [m], by simp⟩
    generalize lineage ms = L at this
    induction L with
    | nil => rfl
    | cons q L ih =>
      rw [List.findSome?_cons, List.findSome?_cons, this q List.mem_cons_self, ih fun q' hq' => this q' (List.mem_cons_of_mem _ hq')]

end Nxt.Increment
