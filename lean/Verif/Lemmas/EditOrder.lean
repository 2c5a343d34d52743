import Verif.Lemmas.Edit
/-!
# Lemmas on the child orders after moving nodes
-/
namespace Nxt.Edit
open Dict Spec Path

theorem upd_name_order (f : Nat → NodeObj) (k j : Nat) (y : Str) :
    (upd f k (fun n => { n with name := y }) j).order = (f j).order := by
  by_cases hj : j = k
  · subst hj; rw [upd_same]
  · rw [upd_ne hj]

theorem upd_parent_order (f : Nat → NodeObj) (k j : Nat) (y : Str) :
    (upd f k (fun n => { n with parent := y }) j).order = (f j).order := by
  by_cases hj : j = k
  · subst hj; rw [upd_same]
  · rw [upd_ne hj]

theorem dropChild_order (f : Nat → NodeObj) (p j : Nat) (n : Str) :
    (dropChild f p n j).order = if j = p then (f j).order.erase n else (f j).order := by
  unfold dropChild
  by_cases hj : j = p
  · subst hj; rw [upd_same, if_pos rfl]
  · rw [upd_ne hj, if_neg hj]

theorem foldl_moveStep_order (old new : Str) (L : Dict Str Nat) (st : St) (j : Nat) :
    ((L.foldl (moveStep old new) st).obj j).order = (st.obj j).order := by
  induction L generalizing st with
  | nil => rfl
  | cons e L ih =>
    rw [List.foldl_cons, ih]
    unfold moveStep
    split
    · rfl
    · split
      · by_cases hj : j = e.2
        · simp only [hj, upd_same]
        · simp only [upd_ne hj]
      · rfl

/-- What one move does to the child orders, in terms of what `unorder` does. -/
theorem parentOne_order {st : St} {i v : Nat} {old : Str} (par x : Str) (hi : get? i st.byNode = some old)
    (hv : get? old st.byPath = some v) :
    ∃ st', parentOne st i par x = some st' ∧ ∀ j, (st'.obj j).order =
      if get? par st.byPath = some j ∧ x ∉ ((unorder st i old).obj j).order
      then ((unorder st i old).obj j).order ++ [x] else ((unorder st i old).obj j).order := by
  obtain ⟨obj1, e1, -⟩ := unorder_tables st i old
  unfold parentOne
  rw [hi]
  simp only [hv, e1]
  refine ⟨_, rfl, fun j => ?_⟩
  simp only [foldl_moveStep_order]
  rw [upd_parent_order]
  cases hq : get? par st.byPath with
  | none =>
    simp only [reduceCtorEq, false_and, if_false]
    rw [upd_name_order]
  | some q =>
    simp only [Option.some.injEq]
    split
    · rename_i hx
      rw [upd_name_order] at hx
      have hno : ¬ (q = j ∧ x ∉ (obj1 j).order) := by
        rintro ⟨rfl, h⟩
        exact h hx
      rw [upd_name_order, if_neg hno]
    · rename_i hx
      rw [upd_name_order] at hx
      by_cases hj : j = q
      · subst hj
        rw [if_pos ⟨rfl, hx⟩]
        simp only [upd_same]
        rw [upd_name_order]
      · rw [if_neg (fun h => hj h.1.symm)]
        simp only [upd_ne hj]
        rw [upd_name_order]

/-- The first ancestor of a path which is a node, seen from below: the paths between are none. -/
theorem find_ancestor {st : St} {anc : List Str} (mid : List Str) (h : Names (anc ++ mid)) (h0 : anc ≠ [])
    (ha : render anc ∈ keys st.byPath) (hgap : ∀ b c, mid = b ++ c → b ≠ [] → render (anc ++ b) ∉ keys st.byPath) :
    (ancestorLoop (render (anc ++ mid))).find? (fun q => (get? q st.byPath).isSome) = some (render anc) := by
  induction hl : mid.length generalizing mid with
  | zero =>
    obtain rfl := List.length_eq_zero_iff.1 hl
    rw [List.append_nil] at h ⊢
    rw [ancestorLoop, if_neg (fun hw => h0 ((render_eq_world h).1 hw)), List.find?_cons_of_pos]
    exact get?_isSome.2 ha
  | succ k ih =>
    rcases eq_nil_or_snoc mid with rfl | ⟨m, x, rfl⟩
    · simp at hl
    · have hw : render (anc ++ (m ++ [x])) ≠ WORLD := fun hw => by
        have := (render_eq_world h).1 hw
        simp at this
      rw [← List.append_assoc] at h hw ⊢
      rw [ancestorLoop, if_neg hw, List.find?_cons_of_neg, parentPath_render_snoc h]
      · refine ih m (names_append.1 h).1 (fun b c hb hb0 => hgap b (c ++ [x]) (by rw [hb, List.append_assoc]) hb0) ?_
        simpa using hl
      · rw [List.append_assoc, get?_isSome]
        exact hgap _ [] (by simp) (by simp)

theorem find_no_ancestor {st : St} (mid : List Str) (h : Names mid)
    (hgap : ∀ b c, mid = b ++ c → b ≠ [] → render b ∉ keys st.byPath) :
    (ancestorLoop (render mid)).find? (fun q => (get? q st.byPath).isSome) = none := by
  rw [ancestorLoop_render h, List.find?_eq_none]
  intro q hq
  obtain ⟨k, hk, rfl⟩ := List.mem_map.1 hq
  rw [List.mem_reverse, List.mem_range'_1] at hk
  rw [get?_isSome]
  refine hgap _ (mid.drop k) (List.take_append_drop k mid).symm ?_
  intro h0
  have := congrArg List.length h0
  rw [List.length_take] at this
  simp at this
  rcases this with h | h
  · omega
  · subst h; simp at hk; omega

/-- Whose child order loses what, when the parent of a moved node is no node. -/
theorem orphanEntry_spec {st : St} (L : Linked st) {i a : Nat} {anc rest : List Str} {m n : Str}
    (h : Names (anc ++ m :: rest ++ [n])) (h0 : anc ≠ []) (hpar : (st.obj i).parent = render (anc ++ m :: rest))
    (ha : get? (render anc) st.byPath = some a)
    (hgap : ∀ b c, m :: rest = b ++ c → b ≠ [] → render (anc ++ b) ∉ keys st.byPath) :
    orphanEntry st i (render (anc ++ m :: rest ++ [n])) = some (a, m) := by
  have hin : render anc ∈ keys st.byPath := get?_isSome.1 (by rw [ha]; rfl)
  have hm : Names (m :: (rest ++ [n])) := by
    have := (names_append.1 (show Names (anc ++ (m :: (rest ++ [n]))) by simpa using h)).2
    exact this
  unfold orphanEntry
  rw [hpar, find_ancestor _ (names_append.1 h).1 h0 hin hgap]
  simp only [ha, (L.inv _ _).1 ha, Option.getD_some]
  have hs : render (anc ++ m :: rest ++ [n]) = [] ++ (render anc ++ ['/']) ++ (slashed (m :: (rest ++ [n]))).tail := by
    rw [render_ne_nil (by simp), render_ne_nil h0, List.append_assoc anc, slashed_append]
    simp [slashed]
  rw [Py.partition?_eq (a := []) (b := (slashed (m :: (rest ++ [n]))).tail) (by simp) hs (by simp)]
  have hr : '/' :: (slashed (m :: (rest ++ [n]))).tail = render (m :: (rest ++ [n])) := by
    rw [render_ne_nil (by simp)]
    simp [slashed]
  simp only [hr]
  rw [Props.C11_root _ hm]
  have h1 : Names ([] ++ [m]) := by
    intro z hz
    exact hm z (by simp at hz; simp [hz])
  have : nodeName (render ([] ++ [m])) = m := (Props.C09_parent_name_join [] m h1).2.1
  simpa using this

/-- The child of a path which is no node, whose parent is one. -/
theorem unorder_orphan {st : St} (L : Linked st) {i p : Nat} {par : List Str} {x y : Str} (h : Names (par ++ [x] ++ [y]))
    (hpl : (st.obj i).parent = render (par ++ [x])) (hp : get? (render par) st.byPath = some p)
    (hno : render (par ++ [x]) ∉ keys st.byPath) (hord : x ∉ (st.obj p).order) (j : Nat) :
    ((unorder st i (render (par ++ [x] ++ [y]))).obj j).order = (st.obj j).order := by
  have hw : render (par ++ [x]) ≠ WORLD := fun hw => by
    have := (render_eq_world (names_append.1 h).1).1 hw
    simp at this
  have hgap : ∀ b c, [x] = b ++ c → b ≠ [] → render (par ++ b) ∉ keys st.byPath := by
    intro b c hb hb0
    have : b = [x] := by
      cases b with
      | nil => exact absurd rfl hb0
      | cons z b => simp at hb; simp [hb]
    rw [this]; exact hno
  unfold unorder
  rw [hpl, if_neg hw, get?_eq_none.2 hno]
  simp only
  by_cases h0 : par = []
  · subst h0
    have : orphanEntry st i (render ([] ++ [x] ++ [y])) = none := by
      unfold orphanEntry
      rw [hpl]
      have := find_no_ancestor (st := st) ([] ++ [x]) (names_append.1 h).1 (by simpa using hgap)
      rw [this]
    rw [this]
  · rw [orphanEntry_spec L (rest := []) (by simpa using h) h0 hpl hp hgap]
    simp only
    rw [dropChild_order]
    split
    · rename_i hj; subst hj; rw [List.erase_of_not_mem hord]
    · rfl

/-- Appending the names which are missing. -/
def addMissing (o : List Str) (names : List Str) : List Str := names.foldl (fun o y => if y ∈ o then o else o ++ [y]) o

theorem addMissing_eq (names : List Str) (o : List Str) (hn : names.Nodup) :
    addMissing o names = o ++ names.filter (fun y => decide (y ∉ o)) := by
  unfold addMissing
  induction names generalizing o with
  | nil => simp
  | cons y ys ih =>
    rw [List.nodup_cons] at hn
    rw [List.foldl_cons, ih _ hn.2, List.filter_cons]
    by_cases h : y ∈ o
    · simp [h]
    · rw [if_neg h]
      simp only [h, not_false_eq_true, decide_true, if_true]
      rw [List.append_assoc]
      congr 1
      rw [List.singleton_append]
      congr 1
      refine List.filter_congr (fun z hz => ?_)
      have : z ≠ y := fun e => hn.1 (e ▸ hz)
      simp [this]

/-- The child orders after the children of a renamed node were moved. -/
theorem parentLoop_order {par : List Str} {x name : Str} {i p : Nat} (hx : Names (par ++ [x])) (hn : Names (par ++ [name])) :
    ∀ (nodes : List (Nat × Str)) (st : St) (olds : List Str), Linked st → CanMove st nodes (par ++ [name]) →
    (∀ e ∈ nodes, IsName e.2 ∧ get? (render (par ++ [x] ++ [e.2])) st.byPath = some e.1) →
    render (par ++ [x]) ∉ keys st.byPath → get? (render par) st.byPath = some p →
    get? (render (par ++ [name])) st.byPath = some i → x ∉ (st.obj p).order →
    ∃ st' olds', parentLoop (render (par ++ [name])) nodes st olds = some (st', olds') ∧
      ∀ j, (st'.obj j).order = if j = i then addMissing (st.obj j).order (nodes.map Prod.snd) else (st.obj j).order := by
  intro nodes
  induction nodes with
  | nil =>
    intro st olds _ _ _ _ _ _ _
    exact ⟨st, olds, rfl, fun j => by simp [addMissing]⟩
  | cons e nodes ih =>
    obtain ⟨c, y⟩ := e
    intro st olds L C hc hno hp hi hord
    obtain ⟨hy, hcy⟩ := hc _ (List.mem_cons_self ..)
    simp only at hcy hy
    have hyn : Names (par ++ [x] ++ [y]) := names_append.2 ⟨hx, by intro z hz; rw [List.mem_singleton.1 hz]; exact hy⟩
    have hnn : Names (par ++ [name] ++ [y]) := names_append.2 ⟨hn, by intro z hz; rw [List.mem_singleton.1 hz]; exact hy⟩
    have hcb : get? c st.byNode = some (render (par ++ [x] ++ [y])) := (L.inv _ _).1 hcy
    have hpl : (st.obj c).parent = render (par ++ [x]) := by
      rcases L.placed _ _ hcy with ⟨h, -⟩ | ⟨ns, z, p1, p2, p3, p4⟩
      · have := (render_eq_world hyn).1 h
        simp at this
      · rw [p3, (List.append_inj' (render_inj hyn p1 p2) rfl).1]
    obtain ⟨st1, a, b, M, -⟩ := parentOne_spec L hyn (by simp) hcb hnn (C.unused _ (List.mem_cons_self ..))
    obtain ⟨st1', a', ho⟩ := parentOne_order (render (par ++ [name])) y hcb hcy
    rw [a] at a'
    obtain rfl := Option.some.inj a'
    simp only [unorder_orphan L hyn hpl hp hno hord] at ho
    have hpi : p ≠ i := by
      rintro rfl
      have := congrArg List.length (render_inj (names_append.1 hx).1 hn (Linked.inj L hp hi))
      simp at this
    have hstay : ∀ ls j, Names ls → ¬ par ++ [x] ++ [y] <+: ls → get? (render ls) st.byPath = some j →
        get? (render ls) st1.byPath = some j := fun ls j hls hpre hj => (M ls j hls).2 ⟨ls, hls, hj, (relocate_of_not hpre).symm⟩
    have hC1 := CanMove.step L b C hyn hcy M
    have hnames := List.nodup_cons.1 C.namesNodup
    obtain ⟨st', olds', r1, r2⟩ := ih st1 (olds ++ [(get? c st.byNode).getD []]) b hC1 (by
        intro e he
        obtain ⟨h1, h2⟩ := hc e (List.mem_cons_of_mem _ he)
        refine ⟨h1, hstay _ _ (names_append.2 ⟨hx, by intro z hz; rw [List.mem_singleton.1 hz]; exact h1⟩) ?_ h2⟩
        intro hpre
        have := List.append_cancel_left (hpre.eq_of_length (by simp))
        exact hnames.1 (List.mem_map.2 ⟨e, he, by simpa using this.symm⟩))
      (by
        intro hin
        obtain ⟨j, hj⟩ := Option.isSome_iff_exists.1 (get?_isSome.2 hin)
        obtain ⟨ls, hls, h1, h2⟩ := (M _ _ hx).1 hj
        unfold relocate at h2
        split at h2
        · have := congrArg List.length h2
          simp at this
        · rw [← h2] at h1
          exact hno (get?_isSome.1 (by rw [h1]; rfl)))
      (hstay _ _ (names_append.1 hx).1 (fun h => by have := h.length_le; simp at this; omega) hp)
      (hstay _ _ hn (fun h => by have := h.length_le; simp at this) hi)
      (by
        rw [ho p, if_neg]
        · exact hord
        · rintro ⟨h, -⟩
          rw [hi] at h
          exact hpi (Option.some.inj h).symm)
    refine ⟨st', olds', by unfold parentLoop; rw [a]; exact r1, fun j => ?_⟩
    rw [r2 j, ho j]
    by_cases hj : j = i
    · subst hj
      rw [if_pos rfl, if_pos rfl, List.map_cons]
      simp only [hi, true_and]
      unfold addMissing
      rw [List.foldl_cons]
      by_cases hm : y ∈ (st.obj j).order <;> simp [hm]
    · rw [if_neg hj, if_neg hj, if_neg]
      rintro ⟨h, -⟩
      rw [hi] at h
      exact hj (Option.some.inj h).symm

end Nxt.Edit
