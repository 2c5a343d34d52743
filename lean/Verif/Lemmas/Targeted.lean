import Verif.Lemmas.Comp
import Verif.Lemmas.Path
import Verif.Spec.Targeted
/-!
# Lemmas about targeted composition
-/
namespace Nxt.Targeted
open Dict NodeData Spec Lists

/-! ### Merging the bases -/

theorem mergeLoop_mem (src tgt : List Nat) (idx : Nat) (rest merged : List Nat) (h : ∀ x ∈ rest, x ∈ src) :
    mergeLoop src tgt idx rest merged = merged := by
  induction rest generalizing idx with
  | nil => rfl
  | cons x xs ih => rw [mergeLoop, if_pos (h x List.mem_cons_self), ih _ (fun y hy => h y (List.mem_cons_of_mem _ hy))]

theorem mergeLoop_append (src tgt : List Nat) (idx : Nat) (xs ys merged : List Nat) :
    mergeLoop src tgt idx (xs ++ ys) merged = mergeLoop src tgt (idx + xs.length) ys (mergeLoop src tgt idx xs merged) := by
  induction xs generalizing idx merged with
  | nil => rfl
  | cons x xs ih =>
    rw [List.cons_append, mergeLoop, mergeLoop, List.length_cons]
    have e : idx + 1 + xs.length = idx + (xs.length + 1) := by omega
    split <;> rw [ih, e]

theorem insertIndex_at (A B L : List Nat) (s : Nat) (hn : (A ++ B ++ L).Nodup) (hs : s ∉ A ++ B ++ L) (hne : A ++ B ≠ []) :
    insertIndex (A ++ B ++ L) (A ++ s :: B) A.length = A.length := by
  unfold insertIndex
  split
  · simp only
    cases A with
    | nil =>
      obtain ⟨b, B, rfl⟩ := List.exists_cons_of_ne_nil (by simpa using hne)
      have h0 : ([] ++ b :: B ++ L)[0 - 1]? ≠ ([] ++ s :: b :: B)[0 - 1]? := by
        simp only [List.nil_append, List.cons_append, Nat.zero_sub, List.getElem?_cons_zero, ne_eq, Option.some.injEq]
        rintro rfl; exact hs (by simp)
      rw [List.length_nil, if_neg h0, if_neg]
      rintro ⟨h1, -, h2⟩
      simp only [List.nil_append, List.cons_append, Nat.zero_add, List.getElem?_cons_succ, List.getElem?_cons_zero] at h2
      have : b ∈ B ++ L := List.mem_of_getElem? h2
      simp only [List.nil_append, List.cons_append, List.nodup_cons] at hn
      exact hn.1 this
    | cons a A =>
      have h0 : (a :: A ++ B ++ L)[(a :: A).length - 1]? = (a :: A ++ s :: B)[(a :: A).length - 1]? := by
        rw [List.append_assoc, List.getElem?_append_left (by simp), List.getElem?_append_left (by simp)]
      rw [if_pos h0]
  · rfl

/-- A new base in the row of the first ones goes where it stands there. -/
theorem listMerger_insert (A B L : List Nat) (s : Nat) (hn : (A ++ B ++ L).Nodup) (hs : s ∉ A ++ B ++ L) (hne : A ++ B ≠ []) :
    listMerger (A ++ B ++ L) (A ++ s :: B) = A ++ s :: B ++ L := by
  unfold listMerger
  have hsub : ∀ x ∈ A ++ B, x ∈ A ++ B ++ L := fun x hx => List.mem_append_left _ hx
  rw [if_neg (show ¬ (A ++ B ++ L = A ++ s :: B) from fun h => hs (by rw [h]; simp))]
  obtain ⟨w, hw⟩ := List.exists_mem_of_ne_nil _ hne
  have hw' : w ∈ A ++ s :: B := by
    rcases List.mem_append.1 hw with h | h
    · exact List.mem_append_left _ h
    · exact List.mem_append_right _ (List.mem_cons_of_mem _ h)
  simp only
  rw [if_neg (show ¬ ∀ x ∈ A ++ s :: B, x ∈ A ++ B ++ L from fun h => hs (h s (by simp))),
    if_neg (show ¬ ∀ x ∈ A ++ s :: B, x ∉ A ++ B ++ L from fun h => h w hw' (hsub w hw))]
  simp only [List.reverse_nil, moveFront]
  rw [mergeLoop_append, mergeLoop_mem _ _ 0 A _ (fun x hx => hsub x (List.mem_append_left _ hx)), mergeLoop,
    if_neg hs, mergeLoop_mem _ _ _ B _ (fun x hx => hsub x (List.mem_append_right _ hx)), Nat.zero_add,
    insertIndex_at A B L s hn hs hne]
  unfold insertAt
  rw [List.append_assoc, List.take_left, List.drop_left]
  simp

theorem newBases_insert (A B L : List Nat) (s : Nat) (hn : (A ++ B ++ L).Nodup) (hs : s ∉ A ++ B ++ L) (hne : A ++ B ≠ []) :
    newBases (A ++ B ++ L) (A ++ s :: B) = A ++ s :: B ++ L := by
  unfold newBases
  obtain ⟨w, hw⟩ := List.exists_mem_of_ne_nil _ hne
  have hw' : w ∈ A ++ s :: B := by
    rcases List.mem_append.1 hw with h | h
    · exact List.mem_append_left _ h
    · exact List.mem_append_right _ (List.mem_cons_of_mem _ h)
  rw [if_pos ⟨w, hw', List.mem_append_left _ hw⟩, listMerger_insert A B L s hn hs hne]

/-! ### The place of the spec -/

theorem refs_all {E : Env} {l : List Nat} (h : ∀ b ∈ l, E.arc b = some .reference) : refs E l = l :=
  List.filter_eq_self.2 (fun b hb => by simp [h b hb])

theorem refs_none {E : Env} {l : List Nat} (h : ∀ b ∈ l, E.arc b ≠ some .reference) : refs E l = [] :=
  List.filter_eq_nil_iff.2 (fun b hb => by simp [h b hb])

/-- The loop over the composite bases: nothing but the first which is no proxy matters. -/
theorem insertLoop_links {E : Env} (tgt spec : Nat) (existing : List Nat) (i : Nat) (links : List Nat)
    (hc : ∀ b ∈ links, E.isComp b = true) (hl : ∀ b ∈ links, E.proxy b = false → ∃ l, E.layer b = some l) :
    insertLoop E tgt spec existing i links =
      some (if ∃ b ∈ links, E.proxy b = false then refs E (existing.take i) ++ [spec] ++ refs E (existing.drop i) else [spec]) := by
  induction links with
  | nil => simp [insertLoop]
  | cons b rest ih =>
    rw [insertLoop]
    by_cases hp : E.proxy b = true
    · rw [if_pos hp, ih (fun x hx => hc x (List.mem_cons_of_mem _ hx)) (fun x hx => hl x (List.mem_cons_of_mem _ hx))]
      simp [hp]
    · obtain ⟨l, e⟩ := hl b List.mem_cons_self (by simpa using hp)
      rw [if_neg hp, e]
      simp only
      rw [if_pos (Or.inr (hc b List.mem_cons_self)), if_pos ⟨b, List.mem_cons_self, by simpa using hp⟩]

theorem insertLoop_based {E : Env} (tgt spec : Nat) (links : List Nat)
    (hl : ∀ b ∈ links, E.isComp b = true ∧ E.arc b ≠ some .reference)
    (hll : ∀ b ∈ links, E.proxy b = false → ∃ l, E.layer b = some l) (done rest : List Nat)
    (hd : ∀ b ∈ done, E.arc b = some .reference ∧ ¬ Weaker E tgt b)
    (hr : ∀ b ∈ rest, E.isComp b = false ∧ E.proxy b = false ∧ E.arc b = some .reference)
    (hy : ∀ b ∈ rest, ∃ l, E.layer b = some l)
    (hs : rest.Pairwise (fun a b => ∀ l m, E.layer a = some l → E.layer b = some m → l ≤ m)) :
    insertLoop E tgt spec (done ++ rest ++ links) done.length (rest ++ links) =
      some (if (∃ b ∈ rest, Weaker E tgt b) ∨ (∃ b ∈ links, E.proxy b = false) then
          (done ++ rest).filter (fun b => ¬ Weaker E tgt b) ++ spec :: (done ++ rest).filter (fun b => Weaker E tgt b)
        else [spec]) := by
  have hdf : done.filter (fun b => decide ¬ Weaker E tgt b) = done := List.filter_eq_self.2 (fun b hb => by simp [(hd b hb).2])
  have hdw : done.filter (fun b => decide (Weaker E tgt b)) = [] := List.filter_eq_nil_iff.2 (fun b hb => by simp [(hd b hb).2])
  induction rest generalizing done with
  | nil =>
    rw [List.nil_append, List.append_nil, insertLoop_links tgt spec _ _ _ (fun b hb => (hl b hb).1) hll]
    rw [List.take_left, List.drop_left, refs_all (fun b hb => (hd b hb).1), refs_none (fun b hb => (hl b hb).2), hdf, hdw]
    simp
  | cons b rest ih =>
    obtain ⟨h1, h2, h3⟩ := hr b List.mem_cons_self
    obtain ⟨l, e⟩ := hy b List.mem_cons_self
    rw [List.cons_append, insertLoop, if_neg (by simp [h2]), e]
    simp only
    have hp := List.pairwise_cons.1 hs
    by_cases hw : tgt < l
    · have hrw : ∀ x ∈ b :: rest, Weaker E tgt x := by
        intro x hx
        rcases List.mem_cons.1 hx with rfl | hx
        · exact ⟨l, e, hw⟩
        · obtain ⟨m, em⟩ := hy x (List.mem_cons_of_mem _ hx)
          exact ⟨m, em, Nat.lt_of_lt_of_le hw (hp.1 x hx l m e em)⟩
      have hbf : (b :: rest).filter (fun b => decide ¬ Weaker E tgt b) = [] :=
        List.filter_eq_nil_iff.2 (fun x hx => by simp [hrw x hx])
      have hbw : (b :: rest).filter (fun b => decide (Weaker E tgt b)) = b :: rest :=
        List.filter_eq_self.2 (fun x hx => by simp [hrw x hx])
      rw [if_pos (Or.inl hw), if_pos (Or.inl ⟨b, List.mem_cons_self, hrw b List.mem_cons_self⟩),
        List.append_assoc done, List.take_left, List.drop_left, refs_all (fun x hx => (hd x hx).1)]
      have e2 : refs E (b :: rest ++ links) = b :: rest := by
        unfold refs
        rw [List.filter_append]
        have q1 := refs_all (E := E) (l := b :: rest) (fun x hx => (hr x hx).2.2)
        have q2 := refs_none (E := E) (l := links) (fun x hx => (hl x hx).2)
        unfold refs at q1 q2
        rw [q1, q2, List.append_nil]
      rw [e2, List.filter_append, List.filter_append, hdf, hdw, hbf, hbw]
      simp
    · have hnw : ¬ Weaker E tgt b := by
        rintro ⟨m, em, hm⟩
        rw [e] at em; cases em; exact hw hm
      rw [if_neg (by simp [hw, h1])]
      have ih' := ih (done ++ [b])
        (fun x hx => by
          rcases List.mem_append.1 hx with hx | hx
          · exact hd x hx
          · rw [List.mem_singleton.1 hx]; exact ⟨h3, hnw⟩)
        (fun x hx => hr x (List.mem_cons_of_mem _ hx)) (fun x hx => hy x (List.mem_cons_of_mem _ hx)) hp.2
        (by rw [List.filter_append, hdf]; simp [hnw]) (by rw [List.filter_append, hdw]; simp [hnw])
      have el : (done ++ [b]).length = done.length + 1 := by simp
      have ea : done ++ [b] ++ rest = done ++ b :: rest := by simp
      rw [el, ea] at ih'
      rw [ih']
      have hiff : (∃ x ∈ b :: rest, Weaker E tgt x) ↔ ∃ x ∈ rest, Weaker E tgt x := by
        constructor
        · rintro ⟨x, hx, h⟩
          rcases List.mem_cons.1 hx with rfl | hx
          · exact absurd h hnw
          · exact ⟨x, hx, h⟩
        · rintro ⟨x, hx, h⟩; exact ⟨x, List.mem_cons_of_mem _ hx, h⟩
      simp only [hiff]

/-! ### The values -/

theorem overload_eq (E : Env) (path : Str) (b : Nat) (own : Dict Str Val) (a : Str) (ha : a ∈ Comp.OVERLOAD) :
    overload E path b own a = Comp.overloadAttr path (E.table b) own a := by
  unfold overload Comp.overloadAttr
  have : a ∈ passed (some .reference) := ha
  simp only [this, and_true]

theorem foldl_overload (E : Env) (path : Str) (b : Nat) (attrs : List Str) (h : ∀ a ∈ attrs, a ∈ Comp.OVERLOAD)
    (own : Dict Str Val) :
    attrs.foldl (overload E path b) own = attrs.foldl (Comp.overloadAttr path (E.table b)) own := by
  induction attrs generalizing own with
  | nil => rfl
  | cons a as ih =>
    rw [List.foldl_cons, List.foldl_cons, overload_eq E path b own a (h a List.mem_cons_self),
      ih (fun x hx => h x (List.mem_cons_of_mem _ hx))]

theorem tracked_overload : ∀ a, a ∈ TRACKED ↔ a ∈ Comp.OVERLOAD := fun _ => List.Perm.mem_iff (by decide +kernel)

/-- What the loop over the bases leaves: at a composed attribute, at its source, and elsewhere. -/
theorem overload_bases (E : Env) (path : Str) (bases : List Nat) (own : Dict Str Val) (x : Str) :
    (x ∈ Comp.OVERLOAD →
      get? x (bases.reverse.foldl (fun own b => TRACKED.foldl (overload E path b) own) own) =
        (match strongest (bases.map E.table) x with | some n => some (getAttr n x) | none => get? x own) ∧
      get? (x ++ M_SOURCE) (bases.reverse.foldl (fun own b => TRACKED.foldl (overload E path b) own) own) =
        (match strongest (bases.map E.table) x with
          | some n => some (.src (Comp.srcLayer n) path) | none => get? (x ++ M_SOURCE) own)) ∧
    (x ∉ Comp.OVERLOAD → (∀ b ∈ Comp.OVERLOAD, x ≠ b ++ M_SOURCE) →
      get? x (bases.reverse.foldl (fun own b => TRACKED.foldl (overload E path b) own) own) = get? x own) := by
  induction bases with
  | nil => simp [strongest]
  | cons b bs ih =>
    simp only [List.reverse_cons, List.foldl_append, List.foldl_cons, List.foldl_nil]
    generalize bs.reverse.foldl (fun own b => TRACKED.foldl (overload E path b) own) own = st at ih ⊢
    rw [foldl_overload E path b TRACKED (fun a h => (tracked_overload a).1 h)]
    obtain ⟨h1, h2, h3⟩ := Comp.get?_overloadAttrs path (E.table b) st TRACKED (fun a h => (tracked_overload a).1 h) x
    constructor
    · intro hx
      have ht := (tracked_overload x).2 hx
      rw [h1 hx, h2 hx, (ih.1 hx).1, (ih.1 hx).2]
      unfold strongest
      rw [List.map_cons]
      by_cases ho : (getAttr (E.table b) x).hasOpinion = true
      · rw [List.find?_cons_of_pos (p := fun n => (getAttr n x).hasOpinion) ho, if_pos ⟨ht, ho⟩, if_pos ⟨ht, ho⟩]
        exact ⟨rfl, rfl⟩
      · rw [List.find?_cons_of_neg (p := fun n => (getAttr n x).hasOpinion) ho, if_neg (fun h => ho h.2),
          if_neg (fun h => ho h.2)]
        exact ⟨rfl, rfl⟩
    · intro hx hx'
      rw [h3 hx hx', ih.2 hx hx']

/-! ### Inherited attributes -/

theorem mem_passed (o : Option Arc) (a : Str) : a ∈ passed o ↔ ∃ x, o = some x ∧ a ∈ handsOn x := by
  cases o with
  | none => simp [passed]
  | some x =>
    have : passed (some x) = handsOn x := by cases x <;> rfl
    rw [this]
    simp

theorem default_eq (a : Str) : default a = noOpinion a := rfl

/-- What one base does to one attribute: its value, and whether it is handled. -/
def attrStep (E : Env) (arcs : List Arc) (a : Str) (st : Option Val × Bool) (b : Nat) : Option Val × Bool :=
  if a ∉ passed (E.arc b) ∨ st.2 then st
  else if (getAttr (E.table b) a).hasOpinion then
    (if ∃ x, E.arc b = some x ∧ x ∈ arcs then some (getAttr (E.table b) a) else st.1, true)
  else (if ∃ x, E.arc b = some x ∧ x ∈ arcs then some (default a) else st.1, st.2)

theorem passed_nodup (o : Option Arc) : (passed o).Nodup := by
  rcases o with _ | _ | _ | _ <;> decide +kernel

/-- One attribute under the loop over the attributes of one base. -/
theorem updateAttr_fold (E : Env) (only : Bool) (b : Nat) (a : Str) (attrs : List Str) (hn : attrs.Nodup)
    (st : Dict Str Val × List Str) :
    let r := attrs.foldl (updateAttr E only b) st
    if a ∈ attrs then
      r.1 |> get? a |> fun v => v = get? a (updateAttr E only b st a).1 ∧ (a ∈ r.2 ↔ a ∈ (updateAttr E only b st a).2)
    else get? a r.1 = get? a st.1 ∧ (a ∈ r.2 ↔ a ∈ st.2) := by
  have other : ∀ (st : Dict Str Val × List Str) (x : Str), x ≠ a →
      get? a (updateAttr E only b st x).1 = get? a st.1 ∧ (a ∈ (updateAttr E only b st x).2 ↔ a ∈ st.2) := by
    intro st x hx
    unfold updateAttr
    split
    · exact ⟨rfl, Iff.rfl⟩
    · split
      · refine ⟨?_, by simp [Ne.symm hx]⟩
        dsimp only
        split
        · rfl
        · rw [get?_set, if_neg (Ne.symm hx)]
      · split
        · exact ⟨rfl, Iff.rfl⟩
        · exact ⟨by rw [get?_set, if_neg (Ne.symm hx)], Iff.rfl⟩
  have same : ∀ (st st' : Dict Str Val × List Str), get? a st.1 = get? a st'.1 → (a ∈ st.2 ↔ a ∈ st'.2) →
      get? a (updateAttr E only b st a).1 = get? a (updateAttr E only b st' a).1 ∧
      (a ∈ (updateAttr E only b st a).2 ↔ a ∈ (updateAttr E only b st' a).2) := by
    intro st st' h1 h2
    unfold updateAttr
    by_cases hm : a ∈ st.2
    · rw [if_pos hm, if_pos (h2.1 hm)]; exact ⟨h1, h2⟩
    · rw [if_neg hm, if_neg (fun h => hm (h2.2 h))]
      split
      · refine ⟨?_, by simp⟩
        dsimp only
        split
        · exact h1
        · rw [get?_set, get?_set, if_pos rfl, if_pos rfl]
      · split
        · exact ⟨h1, h2⟩
        · exact ⟨by rw [get?_set, get?_set, if_pos rfl, if_pos rfl], h2⟩
  induction attrs generalizing st with
  | nil => simp
  | cons x xs ih =>
    obtain ⟨hx, hxs⟩ := List.nodup_cons.1 hn
    have ih' := ih hxs (updateAttr E only b st x)
    simp only [List.foldl_cons] at ih' ⊢
    by_cases hax : a = x
    · subst hax
      rw [if_pos List.mem_cons_self]
      rw [if_neg hx] at ih'
      exact ih'
    · obtain ⟨o1, o2⟩ := other st x (Ne.symm hax)
      by_cases hm : a ∈ xs
      · rw [if_pos (List.mem_cons_of_mem _ hm)]
        rw [if_pos hm] at ih'
        obtain ⟨s1, s2⟩ := same _ st o1 o2
        exact ⟨ih'.1.trans s1, ih'.2.trans s2⟩
      · rw [if_neg (by simp [hax, hm])]
        rw [if_neg hm] at ih'
        exact ⟨ih'.1.trans o1, ih'.2.trans o2⟩

theorem only_eq (E : Env) (arcs : List Arc) (b : Nat) :
    onlyCheck arcs (E.arc b) = decide (¬ ∃ x, E.arc b = some x ∧ x ∈ arcs) := by
  unfold onlyCheck
  cases E.arc b with
  | none => simp
  | some x => simp

theorem updateBase_attr (E : Env) (arcs : List Arc) (a : Str) (st : Dict Str Val × List Str) (b : Nat) :
    (get? a (updateBase E arcs st b).1, decide (a ∈ (updateBase E arcs st b).2)) =
      attrStep E arcs a (get? a st.1, decide (a ∈ st.2)) b := by
  unfold updateBase attrStep
  simp only
  rw [only_eq]
  have h := updateAttr_fold E (decide (¬ ∃ x, E.arc b = some x ∧ x ∈ arcs)) b a (passed (E.arc b)) (passed_nodup _) st
  simp only at h
  by_cases ha : a ∈ passed (E.arc b)
  · rw [if_pos ha] at h
    generalize (passed (E.arc b)).foldl (updateAttr E (decide (¬ ∃ x, E.arc b = some x ∧ x ∈ arcs)) b) st = r at h ⊢
    unfold updateAttr at h
    by_cases hm : a ∈ st.2
    · rw [if_pos hm] at h
      rw [h.1, decide_eq_decide.2 h.2, if_pos (Or.inr (by simp [hm]))]
    · rw [if_neg hm] at h
      rw [if_neg (by simp [ha, hm])]
      by_cases ho : (getAttr (E.table b) a).hasOpinion = true
      · rw [if_pos ho] at h
        have hin : a ∈ r.2 := h.2.2 (by simp)
        rw [if_pos ho, h.1, decide_eq_true hin]
        by_cases he : ∃ x, E.arc b = some x ∧ x ∈ arcs
        · rw [if_pos he, if_neg (by simp [he]), get?_set, if_pos rfl]
        · rw [if_neg he, if_pos (by simp [he])]
      · rw [if_neg ho] at h
        rw [if_neg ho]
        by_cases he : ∃ x, E.arc b = some x ∧ x ∈ arcs
        · rw [if_neg (by simp [he])] at h
          rw [if_pos he, h.1, decide_eq_decide.2 h.2, get?_set, if_pos rfl]
        · rw [if_pos (by simp [he])] at h
          rw [if_neg he, h.1, decide_eq_decide.2 h.2]
  · rw [if_neg ha] at h
    rw [h.1, decide_eq_decide.2 h.2, if_pos (Or.inl ha)]

theorem updateBase_fold (E : Env) (arcs : List Arc) (a : Str) (bases : List Nat) (st : Dict Str Val × List Str) :
    (get? a (bases.foldl (updateBase E arcs) st).1, decide (a ∈ (bases.foldl (updateBase E arcs) st).2)) =
      bases.foldl (attrStep E arcs a) (get? a st.1, decide (a ∈ st.2)) := by
  induction bases generalizing st with
  | nil => rfl
  | cons b bs ih => rw [List.foldl_cons, List.foldl_cons, ih, updateBase_attr]

theorem foldl_default (l : List Str) (own : Dict Str Val) (a : Str) :
    get? a (l.foldl (fun own x => set x (default x) own) own) = if a ∈ l then some (default a) else get? a own := by
  induction l generalizing own with
  | nil => simp
  | cons x xs ih =>
    rw [List.foldl_cons, ih, get?_set]
    by_cases h1 : a ∈ xs <;> by_cases h2 : a = x <;> simp [h1, h2]

theorem updateRest_fold (handled : List Str) (arcs : List Arc) (own : Dict Str Val) (a : Str) :
    get? a (arcs.foldl (updateRest handled) own) =
      if a ∉ handled ∧ ∃ x ∈ arcs, a ∈ handsOn x then some (default a) else get? a own := by
  induction arcs generalizing own with
  | nil => simp
  | cons x xs ih =>
    rw [List.foldl_cons, ih]
    unfold updateRest
    rw [foldl_default]
    have hm : a ∈ (passed (some x)).filter (fun y => decide (y ∉ handled)) ↔ a ∈ handsOn x ∧ a ∉ handled := by
      rw [List.mem_filter, mem_passed]
      simp
    by_cases h1 : a ∈ handled
    · rw [if_neg (fun h => h.1 h1), if_neg (fun h => (hm.1 h).2 h1), if_neg (fun h => h.1 h1)]
    · by_cases h2 : a ∈ handsOn x
      · rw [if_pos (hm.2 ⟨h2, h1⟩), if_pos (c := a ∉ handled ∧ ∃ y ∈ x :: xs, a ∈ handsOn y) ⟨h1, x, by simp, h2⟩]
        split <;> rfl
      · rw [if_neg (c := a ∈ (passed (some x)).filter (fun y => decide (y ∉ handled))) (fun h => h2 (hm.1 h).1)]
        have : (a ∉ handled ∧ ∃ y ∈ xs, a ∈ handsOn y) ↔ (a ∉ handled ∧ ∃ y ∈ x :: xs, a ∈ handsOn y) := by
          simp [h2]
        simp only [this]

/-- One attribute after the whole update. -/
theorem update_attr (E : Env) (proxy : Bool) (arcs : List Arc) (c : Node) (a : Str) :
    get? a (update E proxy arcs c).own =
      let r := c.bases.foldl (attrStep E arcs a) (get? a c.own, decide (proxy = true ∧ a = A_INSTANCE))
      if r.2 = false ∧ ∃ x ∈ arcs, (∀ b ∈ c.bases, E.arc b ≠ some x) ∧ a ∈ handsOn x then some (default a) else r.1 := by
  unfold update
  simp only
  have h0 : decide (a ∈ (if proxy = true then [A_INSTANCE] else [])) = decide (proxy = true ∧ a = A_INSTANCE) := by
    cases proxy <;> simp
  have h := updateBase_fold E arcs a c.bases (c.own, if proxy = true then [A_INSTANCE] else [])
  simp only at h
  rw [h0] at h
  rw [updateRest_fold, ← h]
  have e : (∃ x ∈ arcs.filter (fun x => decide (some x ∉ c.bases.map E.arc)), a ∈ handsOn x) ↔
      ∃ x ∈ arcs, (∀ b ∈ c.bases, E.arc b ≠ some x) ∧ a ∈ handsOn x := by
    constructor
    · rintro ⟨x, hx, ha⟩
      obtain ⟨h1, h2⟩ := List.mem_filter.1 hx
      refine ⟨x, h1, fun b hb he => ?_, ha⟩
      simp only [decide_eq_true_eq] at h2
      exact h2 (List.mem_map.2 ⟨b, hb, he⟩)
    · rintro ⟨x, h1, h2, ha⟩
      refine ⟨x, List.mem_filter.2 ⟨h1, ?_⟩, ha⟩
      simp only [decide_eq_true_eq, List.mem_map, not_exists, not_and]
      exact h2
  simp only [e, decide_eq_false_iff_not]

end Nxt.Targeted
