import Verif.Spec.Retract
import Verif.Lemmas.Increment
/-!
# Lemmas about edits of a composed stage
-/
namespace Nxt.Retract
open Dict NodeData Mro Inherit Increment Spec

/-! ### Layers with a spec changed or taken away -/

theorem stackFrom_put {p : Str} (n' : Dict Str Val) (layers : List Comp.LayerNodes) :
    ∀ k i l n, layers[i]? = some l → get? p l = some n →
      stackFrom k (putSpec layers i p n') p = (stackFrom k layers p).map (fun x => if x.1 = k + i then (x.1, n') else x) := by
  induction layers with
  | nil => intro k i l n h; simp at h
  | cons m layers ih =>
    intro k i l n h hl
    cases i with
    | zero =>
      simp only [List.getElem?_cons_zero, Option.some.injEq] at h
      subst h
      show stackFrom k (Dict.set p n' m :: layers) p = _
      rw [stackFrom_cons, stackFrom_cons, get?_set, if_pos rfl, hl, List.map_append]
      have : (stackFrom (k + 1) layers p).map (fun x => if x.1 = k + 0 then (x.1, n') else x) = stackFrom (k + 1) layers p := by
        refine (List.map_congr_left fun x hx => ?_).trans (List.map_id _)
        have := (stackFrom_ge layers p (k + 1) x hx).1
        rw [if_neg (by omega)]; rfl
      rw [this]
      simp
    | succ i =>
      rw [List.getElem?_cons_succ] at h
      show stackFrom k (m :: putSpec layers i p n') p = _
      rw [stackFrom_cons, stackFrom_cons, ih (k + 1) i l n h hl, List.map_append]
      have e : k + 1 + i = k + (i + 1) := by omega
      rw [e]
      congr 1
      cases get? p m with
      | none => rfl
      | some x =>
        simp only [Option.map_some, Option.toList_some, List.map_cons, List.map_nil]
        rw [if_neg (by omega)]

theorem stackFrom_drop_other {p q : Str} (hne : q ≠ p) (layers : List Comp.LayerNodes) (hok : ∀ l ∈ layers, Dict.Ok l) :
    ∀ k i, stackFrom k (dropSpec layers i p) q = stackFrom k layers q := by
  induction layers with
  | nil => intro k i; simp [dropSpec]
  | cons l layers ih =>
    intro k i
    cases i with
    | zero =>
      show stackFrom k (Dict.erase p l :: layers) q = _
      rw [stackFrom_cons, stackFrom_cons, get?_erase (hok l List.mem_cons_self), if_neg hne]
    | succ i =>
      show stackFrom k (l :: dropSpec layers i p) q = _
      rw [stackFrom_cons, stackFrom_cons, ih fun m hm => hok m (List.mem_cons_of_mem _ hm)]

theorem stackFrom_drop_same {p : Str} (layers : List Comp.LayerNodes) (hok : ∀ l ∈ layers, Dict.Ok l) :
    ∀ k i, stackFrom k (dropSpec layers i p) p = (stackFrom k layers p).filter (fun x => decide (x.1 ≠ k + i)) := by
  induction layers with
  | nil => intro k i; simp [dropSpec, stackFrom]
  | cons l layers ih =>
    intro k i
    cases i with
    | zero =>
      show stackFrom k (Dict.erase p l :: layers) p = _
      rw [stackFrom_cons, stackFrom_cons, get?_erase (hok l List.mem_cons_self), if_pos rfl, List.filter_append]
      have : (stackFrom (k + 1) layers p).filter (fun x => decide (x.1 ≠ k + 0)) = stackFrom (k + 1) layers p := by
        refine List.filter_eq_self.2 fun x hx => ?_
        have := (stackFrom_ge layers p (k + 1) x hx).1
        exact decide_eq_true (by omega)
      rw [this]
      cases get? p l <;> simp
    | succ i =>
      show stackFrom k (l :: dropSpec layers i p) p = _
      rw [stackFrom_cons, stackFrom_cons, ih (fun m hm => hok m (List.mem_cons_of_mem _ hm)), List.filter_append]
      have e : k + 1 + i = k + (i + 1) := by omega
      rw [e]
      congr 1
      cases get? p l with
      | none => rfl
      | some x =>
        simp only [Option.map_some, Option.toList_some]
        exact (List.filter_eq_self.2 fun y hy => decide_eq_true (by rw [List.mem_singleton.1 hy]; show k ≠ _; omega)).symm

theorem mem_dropSpec {layers : List Comp.LayerNodes} {i : Nat} {p : Str} {l : Comp.LayerNodes}
    (h : l ∈ dropSpec layers i p) : l ∈ layers ∨ ∃ m ∈ layers, l = Dict.erase p m := by
  unfold dropSpec at h
  induction layers generalizing i with
  | nil => simp at h
  | cons m layers ih =>
    cases i with
    | zero =>
      rw [List.modify_zero_cons] at h
      rcases List.mem_cons.1 h with rfl | h
      · exact .inr ⟨m, by simp, rfl⟩
      · exact .inl (List.mem_cons_of_mem _ h)
    | succ i =>
      rw [List.modify_succ_cons] at h
      rcases List.mem_cons.1 h with rfl | h
      · exact .inl List.mem_cons_self
      · rcases ih h with h | ⟨x, h1, h2⟩
        · exact .inl (List.mem_cons_of_mem _ h)
        · exact .inr ⟨x, List.mem_cons_of_mem _ h1, h2⟩

/-! ### Classes -/

/-- One class less among the specs of a node. -/
theorem laid_less {g : Classes} {nodes : Dict Str Nat} {specs links : Nat → List Nat} (h : Laid g nodes specs links)
    {p : Str} {c : Nat} (hc : (p, c) ∈ nodes) {some' : List Nat} (hsub : some'.Sublist (specs c)) (hne : some' ≠ []) :
    Laid (withBases g c (some' ++ links c)) nodes (fun d => if d = c then some' else specs d) links := by
  have hbases : ∀ d, d ≠ c → (withBases g c (some' ++ links c)).bases d = g.bases d := fun d hd => by
    simp only [Inherit.withBases]; rw [if_neg hd]
  have hcs : ∀ d, (∀ q, (q, d) ∉ nodes) → d ≠ c := by rintro d hd rfl; exact hd p hc
  have cpos := (h.comp p c hc).1
  have hspec : ∀ d x, x ∈ (if d = c then some' else specs d) → x ∈ specs d := by
    intro d x hx
    split at hx
    · rename_i e; subst e; exact hsub.subset hx
    · exact hx
  refine ⟨h.ok, h.inj, ?_, h.pos, ?_, h.link, ?_, ?_, ?_, ?_, ?_⟩
  · rw [hbases 0 (by omega)]; exact h.root
  · intro q d hd
    refine ⟨(h.comp q d hd).1, (h.comp q d hd).2.1, ?_⟩
    by_cases e : d = c
    · subst e; simp [Inherit.withBases]
    · rw [hbases d e, if_neg e]; exact (h.comp q d hd).2.2
  · intro q d hd x hx
    obtain ⟨h1, h2, h3, h4⟩ := h.spec q d hd x (hspec d x hx)
    exact ⟨h1, h2, by rw [hbases x (hcs x h4)]; exact h3, h4⟩
  · intro q d hd
    split
    · exact hne
    · exact h.nonempty q d hd
  · intro q d hd
    split
    · rename_i e; subst e; exact hsub.nodup (h.nodup q d hd)
    · exact h.nodup q d hd
  · intro q d r e hd he x hxd hxe
    exact h.disjoint q d r e hd he x (hspec d x hxd) (hspec e x hxe)
  · intro x hx h1 h2
    rw [hbases x (hcs x h2)]
    exact h.others x hx h1 h2

/-- One node less, which no other has as a base. -/
theorem laid_erase {g : Classes} {nodes : Dict Str Nat} {specs links : Nat → List Nat} (h : Laid g nodes specs links)
    {p : Str} {c : Nat} (hc : (p, c) ∈ nodes) (hl : ∀ q d, (q, d) ∈ nodes → c ∉ links d) (own : Nat → Dict Str Val) :
    Laid ⟨g.size, fun d => if d = c then [0] else g.bases d, own⟩ (Dict.erase p nodes) specs links := by
  have hsub : ∀ x ∈ Dict.erase p nodes, x ∈ nodes := fun x hx => (erase_sublist nodes p).subset hx
  have hmem : ∀ q d, (q, d) ∈ Dict.erase p nodes ↔ (q, d) ∈ nodes ∧ d ≠ c := by
    intro q d
    constructor
    · intro hd
      refine ⟨hsub _ hd, ?_⟩
      rintro rfl
      have := get?_of_mem (ok_erase h.ok p) hd
      rw [get?_erase h.ok, if_pos (h.inj _ _ _ (hsub _ hd) hc)] at this
      cases this
    · rintro ⟨hd, hne⟩
      refine mem_of_get? ?_
      rw [get?_erase h.ok, if_neg, get?_of_mem h.ok hd]
      rintro rfl
      have := get?_of_mem h.ok hd
      rw [get?_of_mem h.ok hc] at this
      exact hne (Option.some.inj this).symm
  have cpos := (h.comp p c hc).1
  refine ⟨ok_erase h.ok p, fun q r d hq hr => h.inj q r d (hsub _ hq) (hsub _ hr), ?_, h.pos, ?_, ?_, ?_,
    fun q d hd => h.nonempty q d (hsub _ hd), fun q d hd => h.nodup q d (hsub _ hd),
    fun q d r e hd he => h.disjoint q d r e (hsub _ hd) (hsub _ he), ?_⟩
  · show (if 0 = c then [0] else g.bases 0) = []
    rw [if_neg (by omega)]; exact h.root
  · intro q d hd
    obtain ⟨hd, hne⟩ := (hmem q d).1 hd
    refine ⟨(h.comp q d hd).1, (h.comp q d hd).2.1, ?_⟩
    show (if d = c then [0] else g.bases d) = _
    rw [if_neg hne]; exact (h.comp q d hd).2.2
  · intro q d hd b hb
    obtain ⟨hd, -⟩ := (hmem q d).1 hd
    obtain ⟨r, hr⟩ := h.link q d hd b hb
    refine ⟨r, (hmem r b).2 ⟨hr, ?_⟩⟩
    rintro rfl
    exact hl q d hd hb
  · intro q d hd s hs
    obtain ⟨hd, -⟩ := (hmem q d).1 hd
    obtain ⟨h1, h2, h3, h4⟩ := h.spec q d hd s hs
    refine ⟨h1, h2, ?_, fun r hr => h4 r (hsub _ hr)⟩
    show (if s = c then [0] else g.bases s) = _
    split
    · rfl
    · exact h3
  · intro s h1 h2 h3
    show (if s = c then [0] else g.bases s) = _
    split
    · rfl
    · rename_i hne
      exact h.others s h1 h2 fun q hq => h3 q ((hmem q s).2 ⟨hq, hne⟩)

/-! ### The nearest node above -/

theorem nearestAbove_prefix {nodes : Dict Str Nat} {ms : List Str} {b : Nat} (h : nearestAbove nodes ms = some b) :
    ∃ q m t, ms = q ++ m :: t ∧ get? (render q) nodes = some b := by
  rcases Path.eq_nil_or_snoc ms with rfl | ⟨ms, m, rfl⟩
  · simp [nearestAbove] at h
  · rw [nearestAbove_snoc] at h
    obtain ⟨q, hq, hg⟩ := List.exists_of_findSome?_eq_some h
    obtain ⟨t, rfl⟩ := mem_lineage.1 hq
    cases t with
    | nil => exact ⟨q, m, [], by simp, hg⟩
    | cons x t => exact ⟨q, x, t ++ [m], by simp, hg⟩

theorem nearestAbove_erase {nodes : Dict Str Nat} (hok : Dict.Ok nodes) {ns ms : List Str} (hn : Names ns) (hm : Names ms)
    (h : ¬ ∃ m t, ms = ns ++ m :: t) : nearestAbove (Dict.erase (render ns) nodes) ms = nearestAbove nodes ms := by
  rcases Path.eq_nil_or_snoc ms with rfl | ⟨ms, m, rfl⟩
  · rfl
  · rw [nearestAbove_snoc, nearestAbove_snoc]
    have : ∀ q ∈ lineage ms, get? (render q) (Dict.erase (render ns) nodes) = get? (render q) nodes := by
      intro q hq
      rw [mem_lineage] at hq
      rw [get?_erase hok, if_neg]
      intro e
      have hq' : Names q := fun x hx => hm x (List.mem_append_left _ (hq.subset hx))
      obtain rfl := Path.render_inj hq' hn e
      obtain ⟨t, rfl⟩ := hq
      cases t with
      | nil => exact h ⟨m, [], by simp⟩
      | cons x t => exact h ⟨x, t ++ [m], by simp⟩
    generalize lineage ms = L at this
    induction L with
    | nil => rfl
    | cons q L ih =>
      rw [List.findSome?_cons, List.findSome?_cons, this q List.mem_cons_self, ih fun q' hq' => this q' (List.mem_cons_of_mem _ hq')]

end Nxt.Retract
