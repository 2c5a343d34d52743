import Verif.Model.ChildOrder
import Verif.Model.Comp
import Verif.Spec.ChildOrder
import Verif.Props.Lists
import Verif.Lemmas.Dict
import Verif.Lemmas.Dirty
/-!
# C93–C95: editing child orders
-/
namespace Nxt.Props
open Spec Lists ChildOrder

theorem listMerger_same {α : Type} [DecidableEq α] (a : List α) : listMerger a a = a := by unfold listMerger; rw [if_pos rfl]

/-- Merging a list of orders. -/
theorem foldl_merger {α : Type} [DecidableEq α] (os : List (List α)) (hs : ∀ o ∈ os, o.Nodup) (co : List α) (hc : co.Nodup) :
    (os.foldl listMerger co).Nodup ∧ (∀ x, x ∈ os.foldl listMerger co ↔ x ∈ co ∨ ∃ o ∈ os, x ∈ o) ∧
      co.Sublist (os.foldl listMerger co) := by
  induction os generalizing co with
  | nil => exact ⟨hc, fun x => by simp, List.Sublist.refl _⟩
  | cons o os ih =>
    obtain ⟨h1, h2⟩ := C15_union_nodup co o hc (hs o List.mem_cons_self)
    obtain ⟨a, b, c⟩ := ih (fun o ho => hs o (List.mem_cons_of_mem _ ho)) _ h1
    refine ⟨a, fun x => ?_, (C15_base_order co o hc).trans c⟩
    rw [List.foldl_cons, b x, h2 x]
    simp [or_assoc]

/-! ## C93 -/

/-- C93: the new order of the composite node has no duplicates, has the names of the order set, of the layers
below and of the order before, and keeps the order set. -/
theorem C93_names (old co : List Str) (lower : List (List Str)) (comp : List Str) (refs : List (List Str)) (inst : Option (List Str))
    (hco : co.Nodup) (hl : ∀ o ∈ lower, o.Nodup) (hcomp : comp.Nodup) (h : old = [] ∨ co ≠ []) :
    (compOrder old co lower comp refs inst).Nodup ∧
    (∀ x, x ∈ compOrder old co lower comp refs inst ↔ x ∈ co ∨ (∃ o ∈ lower, x ∈ o) ∨ x ∈ comp) ∧
    co.Sublist (compOrder old co lower comp refs inst) := by
  have e : compOrder old co lower comp refs inst = listMerger (lower.foldl listMerger co) comp := by
    unfold compOrder
    rw [if_neg (fun hh => h.elim (fun h => hh.1 h) (fun h => h hh.2))]
    rfl
  rw [e]
  obtain ⟨h1, h2, h3⟩ := foldl_merger lower hl co hco
  obtain ⟨h4, h5⟩ := C15_union_nodup _ comp h1 hcomp
  refine ⟨h4, fun x => ?_, h3.trans (C15_base_order _ comp h1)⟩
  rw [h5 x, h2 x, or_assoc]

/-- C93: taking an order away gives the merged orders of the bases: no duplicates and exactly their names. -/
theorem C93_reset (old : List Str) (lower : List (List Str)) (comp : List Str) (refs : List (List Str)) (inst : Option (List Str))
    (hr : ∀ o ∈ refs, o.Nodup) (hi : ∀ o ∈ inst, o.Nodup) (h : old ≠ []) :
    (compOrder old [] lower comp refs inst).Nodup ∧
    ∀ x, x ∈ compOrder old [] lower comp refs inst ↔ (∃ o ∈ refs, x ∈ o) ∨ ∃ o ∈ inst, x ∈ o := by
  have e : compOrder old [] lower comp refs inst = resetOrder [] refs inst := by
    unfold compOrder
    rw [if_pos ⟨h, rfl⟩]
  rw [e]
  obtain ⟨h1, h2, -⟩ := foldl_merger refs hr [] List.nodup_nil
  unfold resetOrder
  cases inst with
  | none =>
    refine ⟨h1, fun x => ?_⟩
    simp only [h2 x]
    simp
  | some i =>
    obtain ⟨h3, h4⟩ := C15_union_nodup _ i h1 (hi i rfl)
    refine ⟨h3, fun x => ?_⟩
    simp only [h4 x, h2 x]
    simp

/-- What the composition of layers (`comp_pre_proxies`) gives a node is the specified order. -/
theorem C93_composition (path : Str) (hp : path ≠ Path.WORLD) (bases : List (Dict Str Val)) :
    Comp.childOrder (Comp.compNode path bases).own = composedOrder (bases.map Comp.childOrder) := by
  have key : ∀ (bs : List (Dict Str Val)) (st : Dict Str Val × List Str),
      (bs.foldl (Comp.overloadBase path) st).2 = bs.foldl (fun co n => listMerger (Comp.childOrder n) co) st.2 := by
    intro bs
    induction bs with
    | nil => exact fun _ => rfl
    | cons b bs ih =>
      intro st
      rw [List.foldl_cons, ih, List.foldl_cons]
      congr 1
      unfold Comp.overloadBase
      simp only
      rw [if_neg hp]
  have names_strs : ∀ l : List Str, NodeData.names (.list (l.map Val.str)) = some l := by
    intro l
    unfold NodeData.names
    simp only
    induction l with
    | nil => rfl
    | cons x l ih => simp_all
  have e : Comp.childOrder (Comp.compNode path bases).own =
      (bases.reverse.foldl (Comp.overloadBase path) ((match bases.head? with | some n => [(NodeData.A_NAME, NodeData.getAttr n NodeData.A_NAME)] | none => []),
        match bases.getLast? with | some n => Comp.childOrder n | none => [])).2 := by
    unfold Comp.compNode
    simp only
    generalize (bases.reverse.foldl (Comp.overloadBase path) _) = st
    unfold Comp.childOrder NodeData.getAttr
    rw [Dict.get?_set, if_pos rfl]
    simp only [names_strs, Option.getD_some, Option.some_or]
  rw [e, key, List.foldl_reverse]
  simp only
  clear e key
  -- fold from the right
  induction bases with
  | nil => rfl
  | cons b bs ih =>
    cases bs with
    | nil => simp only [List.foldr, List.getLast?_singleton, List.map, composedOrder]; exact listMerger_same _
    | cons c cs =>
      rw [List.foldr_cons]
      have : (b :: c :: cs).getLast? = (c :: cs).getLast? := by simp [List.getLast?_cons]
      rw [this, ih]
      rfl

/-- C93: the order agrees with that of a new composition, if the target layer is the strongest with that node,
at most one layer below it has names of its own, and no name is lost. -/
theorem C93_composed_partial (old co : List Str) (rest : List (List Str)) (comp : List Str) (refs : List (List Str)) (inst : Option (List Str))
    (hco : co.Nodup) (hl : ∀ o ∈ rest, o.Nodup) (h : old = [] ∨ co ≠ [])
    (hrest : rest.length ≤ 1 ∨ ∀ o ∈ rest, ∀ x ∈ o, x ∈ co) (hcomp : ∀ x ∈ comp, x ∈ co ∨ ∃ o ∈ rest, x ∈ o) :
    compOrder old co (co :: rest) comp refs inst = composedOrder (co :: rest) := by
  have e : compOrder old co (co :: rest) comp refs inst = listMerger ((co :: rest).foldl listMerger co) comp := by
    unfold compOrder
    rw [if_neg (fun hh => h.elim (fun h => hh.1 h) (fun h => h hh.2))]
    rfl
  have hin : ∀ x ∈ comp, x ∈ rest.foldl listMerger co := fun x hx =>
    ((foldl_merger rest hl co hco).2.1 x).2 (hcomp x hx)
  rw [e, List.foldl_cons, listMerger_same, C15_contained _ _ hin]
  rcases hrest with h1 | h1
  · match rest, h1 with
    | [], _ => rfl
    | [r], _ => rfl
    | _ :: _ :: _, h1 => simp at h1
  · have hfold : rest.foldl listMerger co = co := by
      clear e hin hcomp
      induction rest with
      | nil => rfl
      | cons r rest ih =>
        rw [List.foldl_cons, C15_contained co r (h1 r List.mem_cons_self)]
        exact ih (fun o ho => hl o (List.mem_cons_of_mem _ ho)) (fun o ho => h1 o (List.mem_cons_of_mem _ ho))
    rw [hfold]
    cases rest with
    | nil => rfl
    | cons r rest =>
      have hsub : ∀ (os : List (List Str)), (∀ o ∈ os, o.Nodup) → (∀ o ∈ os, ∀ x ∈ o, x ∈ co) →
          (composedOrder os).Nodup ∧ ∀ x ∈ composedOrder os, x ∈ co := by
        intro os
        induction os with
        | nil => exact fun _ _ => ⟨List.nodup_nil, fun _ h => nomatch h⟩
        | cons o os ih =>
          intro hn hs
          obtain ⟨a, b⟩ := ih (fun o ho => hn o (List.mem_cons_of_mem _ ho)) (fun o ho => hs o (List.mem_cons_of_mem _ ho))
          cases os with
          | nil => exact ⟨hn o List.mem_cons_self, hs o List.mem_cons_self⟩
          | cons o' os =>
            obtain ⟨c, d⟩ := C15_union_nodup o (composedOrder (o' :: os)) (hn o List.mem_cons_self) a
            refine ⟨c, fun x hx => ?_⟩
            rcases (d x).1 hx with hx | hx
            · exact hs o List.mem_cons_self x hx
            · exact b x hx
      exact (C15_contained co _ (hsub (r :: rest) hl h1).2).symm

/-- Names as they are written in the examples. -/
def nm (s : String) : List Str := s.toList.map (fun c => [c])

/-- A new order for two children, with one more name in the layer below. -/
example : compOrder (nm "ab") (nm "ba") [nm "ba", nm "ac"] (nm "abc") [] none = nm "bca" ∧ composedOrder [nm "ba", nm "ac"] = nm "bca" := by
  decide +kernel
example : compOrder (nm "ba") [] [[], nm "ac"] (nm "bac") [[], nm "ac"] (some (nm "d")) = nm "acd" := by decide +kernel

/-- C93 fails: a name left out of the order set stays in the order of the composite node. -/
theorem C93_removed_violation (old co : List Str) (lower : List (List Str)) (comp : List Str) (refs : List (List Str)) (inst : Option (List Str))
    (hco : co.Nodup) (hl : ∀ o ∈ lower, o.Nodup) (hcomp : comp.Nodup) (h : co ≠ []) (x : Str) (hx : x ∈ comp) :
    x ∈ compOrder old co lower comp refs inst :=
  ((C93_names old co lower comp refs inst hco hl hcomp (.inr h)).2.1 x).2 (.inr (.inr hx))

example : compOrder (nm "ab") (nm "b") [nm "b"] (nm "ab") [] none = nm "ab" ∧ composedOrder [nm "b"] = nm "b" := by decide +kernel

/-- C93 fails: stronger layers are not looked at, so an order set on a weaker layer wins until the next
composition. -/
theorem C93_stronger_violation : compOrder (nm "ba") (nm "ab") [nm "ab"] (nm "ba") [] none = nm "ab" ∧
    composedOrder [nm "ba", nm "ab"] = nm "ba" := by decide +kernel

/-- C93 fails: merging is not associative; orders are merged from strong to weak here and from weak to strong in
the composition. -/
theorem C93_fold_violation : compOrder (nm "a") (nm "a") [nm "a", nm "b", nm "a"] (nm "ba") [] none = nm "ab" ∧
    composedOrder [nm "a", nm "b", nm "a"] = nm "ba" := by decide +kernel

/-! ## C94 -/

theorem propagate_lay (old new : List Str) (ds : List Str) (N : Nodes) : (propagate old new ds N).kids = N.kids ∧
    ∀ p, p ∉ ds → (propagate old new ds N).order p = N.order p := by
  induction ds generalizing N with
  | nil => exact ⟨rfl, fun _ _ => rfl⟩
  | cons d ds ih =>
    obtain ⟨a, b⟩ := ih (setOrder N d (propagateOne old new (orderedNames (N.order d) (N.kids d))))
    refine ⟨a, fun p hp => ?_⟩
    have h1 : p ≠ d := fun e => hp (e ▸ List.mem_cons_self)
    have : (propagate old new (d :: ds) N).order p = (setOrder N d (propagateOne old new (orderedNames (N.order d) (N.kids d)))).order p :=
      b p (fun h => hp (List.mem_cons_of_mem _ h))
    rw [this]
    exact if_neg h1

/-- C94: only the dependent nodes get a new order, each from its own children. -/
theorem C94_each (old new : List Str) (ds : List Str) (hd : ds.Nodup) (N : Nodes) (p : Str) :
    (propagate old new ds N).order p =
      if p ∈ ds then propagateOne old new (orderedNames (N.order p) (N.kids p)) else N.order p := by
  induction ds generalizing N with
  | nil => rfl
  | cons d ds ih =>
    obtain ⟨h1, h2⟩ := List.nodup_cons.1 hd
    have e : propagate old new (d :: ds) N = propagate old new ds (setOrder N d (propagateOne old new (orderedNames (N.order d) (N.kids d)))) := rfl
    by_cases hp : p = d
    · subst hp
      rw [e, (propagate_lay old new ds _).2 p h1, if_pos List.mem_cons_self]
      exact if_pos rfl
    · rw [e, ih h2]
      have ho : (setOrder N d (propagateOne old new (orderedNames (N.order d) (N.kids d)))).order p = N.order p := if_neg hp
      rw [ho]
      show (if p ∈ ds then propagateOne old new (orderedNames (N.order p) (N.kids p)) else N.order p) = _
      simp [hp]

/-- C94: the children in order are the children, those in the order first. -/
theorem C94_ordered (co kids : List Str) (hk : kids.Nodup) (hc : co.Nodup) :
    (orderedNames co kids).Perm kids ∧ orderedNames co kids = within kids co ++ kids.filter (· ∉ co) := by
  have hone : ∀ c, kids.filter (· = c) = if c ∈ kids then [c] else [] := by
    intro c
    clear hc
    induction kids with
    | nil => rfl
    | cons k ks ih =>
      obtain ⟨h1, h2⟩ := List.nodup_cons.1 hk
      rw [List.filter_cons, ih h2]
      by_cases hkc : k = c
      · subst hkc
        simp [h1]
      · have : c ≠ k := fun e => hkc e.symm
        simp [hkc, this]
  have hflat : co.flatMap (fun c => kids.filter (· = c)) = within kids co := by
    unfold within
    clear hc
    induction co with
    | nil => rfl
    | cons c co ih =>
      rw [List.flatMap_cons, ih, List.filter_cons, hone c]
      by_cases h : c ∈ kids <;> simp [h]
  have hrest : kids.filter (· ∉ within kids co) = kids.filter (· ∉ co) := by
    apply List.filter_congr
    intro x hx
    unfold within
    simp [hx]
  have e : orderedNames co kids = within kids co ++ kids.filter (· ∉ co) := by
    unfold orderedNames
    by_cases h : co = []
    · subst h
      rw [if_pos rfl]
      simp only [within, List.filter_nil, List.nil_append, List.not_mem_nil, not_false_eq_true, decide_true]
      exact (List.filter_eq_self.2 (fun _ _ => rfl)).symm
    · rw [if_neg h]
      simp only [hflat, hrest]
  refine ⟨?_, e⟩
  rw [e]
  rw [List.perm_ext_iff_of_nodup _ hk]
  · intro x
    unfold within
    by_cases h : x ∈ co <;> simp [h]
  · rw [List.nodup_append]
    refine ⟨hc.filter _, hk.filter _, ?_⟩
    intro a ha b hb e
    subst e
    have h1 := (List.mem_filter.1 ha).1
    have h2 := (List.mem_filter.1 hb).2
    simp [h1] at h2

theorem splice_spec {old new : List Str} {pre l r : List Str} (ho : old ≠ []) (h : splice old new pre l = some r) :
    ∃ a b, l = a ++ old ++ b ∧ r = pre ++ a ++ new ++ b ∧ ∀ a' b', l = a' ++ old ++ b' → a.length ≤ a'.length := by
  induction l generalizing pre with
  | nil => cases h
  | cons x l ih =>
    unfold splice at h
    split at h
    · next ht =>
      rw [Option.some.injEq] at h
      refine ⟨[], (x :: l).drop old.length, ?_, ?_, fun _ _ _ => Nat.zero_le _⟩
      · have := (List.take_append_drop old.length (x :: l)).symm
        rw [ht] at this
        simpa using this
      · rw [← h]; simp
    · next ht =>
      obtain ⟨a, b, h1, h2, h3⟩ := ih h
      refine ⟨x :: a, b, by rw [h1]; simp, by rw [h2]; simp, ?_⟩
      intro a' b' e
      cases a' with
      | nil =>
        exfalso
        apply ht
        rw [e]
        simp
      | cons y a' =>
        rw [List.cons_append, List.cons_append, List.cons.injEq] at e
        have := h3 a' b' e.2
        simpa using this

theorem splice_none {old new : List Str} {pre l : List Str} (h : splice old new pre l = none) (ho : old ≠ []) : ¬ old <:+: l := by
  induction l generalizing pre with
  | nil =>
    rintro ⟨a, b, e⟩
    have : old = [] := by
      simp at e
      exact e.2.1
    exact ho this
  | cons x l ih =>
    unfold splice at h
    split at h
    · cases h
    · next ht =>
      rintro ⟨a, b, e⟩
      cases a with
      | nil =>
        apply ht
        rw [← e]
        simp
      | cons y a =>
        rw [List.cons_append, List.cons_append, List.cons.injEq] at e
        exact ih h ⟨a, b, e.2⟩

/-- C94: where the old order stands in a row among the children of a dependent node, the new one takes its place
and the names around it stay. -/
theorem C94_in_place (old new pre post : List Str) (ho : old ≠ []) (hn : (pre ++ old ++ post).Nodup) :
    propagateOne old new (pre ++ old ++ post) = pre ++ new ++ post := by
  have hne : pre ++ old ++ post ≠ [] := by
    intro h
    simp at h
    exact ho h.2.1
  unfold propagateOne
  rw [if_pos ⟨fun x hx => by simp [hx], ho, hne⟩]
  cases h : splice old new [] (pre ++ old ++ post) with
  | none => exact absurd ⟨pre, post, rfl⟩ (splice_none h ho)
  | some r =>
    obtain ⟨a, b, h1, h2, -⟩ := splice_spec ho h
    obtain ⟨x, old', rfl⟩ := List.exists_cons_of_ne_nil ho
    have hx : a = pre := by
      have i1 : (pre ++ (x :: old') ++ post).idxOf x = pre.length := by
        rw [List.append_assoc, List.idxOf_append, if_neg]
        · simp
        · intro hh
          rw [List.append_assoc, List.nodup_append] at hn
          exact hn.2.2 x hh x (by simp) rfl
      have i2 : (pre ++ (x :: old') ++ post).idxOf x = a.length := by
        rw [h1] at hn ⊢
        rw [List.append_assoc, List.idxOf_append, if_neg]
        · simp
        · intro hh
          rw [List.append_assoc, List.nodup_append] at hn
          exact hn.2.2 x hh x (by simp) rfl
      have hlen : a.length = pre.length := i2.symm.trans i1
      rw [List.append_assoc, List.append_assoc] at h1
      exact (List.append_inj h1 hlen.symm).1.symm
    subst hx
    have hb : b = post := by
      rw [List.append_assoc, List.append_assoc] at h1
      exact (List.append_cancel_left (List.append_cancel_left h1)).symm
    subst hb
    rw [h2]
    simp

/-- C94: a dependent node with some but not all of the old names keeps its order; one with none of them gets the
new names behind its own. -/
theorem C94_other (old new kids : List Str) :
    ((∃ x ∈ old, x ∈ kids) → (∃ x ∈ old, x ∉ kids) → propagateOne old new kids = kids) ∧
    ((∀ x ∈ old, x ∉ kids) → propagateOne old new kids = kids ++ new) := by
  unfold propagateOne
  constructor
  · rintro h ⟨x, hx, hx'⟩
    rw [if_neg (fun hh => hx' (hh.1 x hx)), if_pos h]
  · intro h
    rw [if_neg, if_neg]
    · rintro ⟨x, hx, hx'⟩
      exact h x hx hx'
    · rintro ⟨h1, h2, h3⟩
      obtain ⟨x, l, rfl⟩ := List.exists_cons_of_ne_nil h2
      exact h x List.mem_cons_self (h1 x List.mem_cons_self)

/-- C94: no name of the new order is missing afterwards, unless the old order stands there in parts only. -/
theorem C94_has_new (old new kids : List Str) (h : (∀ x ∈ old, x ∈ kids) ∨ ∀ x ∈ old, x ∉ kids) (x : Str) (hx : x ∈ new) :
    x ∈ propagateOne old new kids := by
  rcases h with h | h
  · by_cases hc : old ≠ [] ∧ kids ≠ []
    · unfold propagateOne
      rw [if_pos ⟨h, hc⟩]
      cases hs : splice old new [] kids with
      | none => exact hx
      | some r =>
        obtain ⟨a, b, -, h2, -⟩ := splice_spec hc.1 hs
        rw [Option.getD_some, h2]
        simp [hx]
    · have ho : ∀ x ∈ old, x ∉ kids := by
        intro y hy hk
        apply hc
        constructor
        · rintro rfl; cases hy
        · rintro rfl; cases hk
      rw [(C94_other old new kids).2 ho]
      simp [hx]
  · rw [(C94_other old new kids).2 h]
    simp [hx]

example : propagateOne (nm "ab") (nm "ba") (nm "xaby") = nm "xbay" := by decide +kernel

/-- C94 fails: if the layer node had no order, dependent nodes get all names again, so names double. -/
theorem C94_double_violation (new kids : List Str) (x : Str) (hx : x ∈ new) (hk : x ∈ kids) :
    ¬ (propagateOne [] new kids).Nodup := by
  rw [(C94_other [] new kids).2 (fun _ h => nomatch h)]
  intro hn
  exact (List.nodup_append.1 hn).2.2 x hk x hx rfl

example : propagateOne [] (nm "ba") (nm "ab") = nm "abba" := by decide +kernel

/-- C94 fails: where the old names do not stand in a row, names of the dependent node are lost. -/
theorem C94_lost_violation (old new kids : List Str) (ho : old ≠ []) (hk : ∀ x ∈ old, x ∈ kids) (hrow : ¬ old <:+: kids) :
    propagateOne old new kids = new := by
  have hne : kids ≠ [] := by
    obtain ⟨x, l, rfl⟩ := List.exists_cons_of_ne_nil ho
    rintro rfl
    exact nomatch hk x List.mem_cons_self
  unfold propagateOne
  rw [if_pos ⟨hk, ho, hne⟩]
  cases hs : splice old new [] kids with
  | none => rfl
  | some r =>
    obtain ⟨a, b, h1, -, -⟩ := splice_spec ho hs
    exact absurd ⟨a, b, h1.symm⟩ hrow

example : propagateOne (nm "ab") (nm "ba") (nm "axb") = nm "ba" ∧ ¬ nm "ab" <:+: nm "axb" := by decide +kernel

/-- C93, C94: setting an order changes the node and its dependents only. -/
theorem C94_set (N : Nodes) (path : Str) (old co : List Str) (lower refs : List (List Str)) (inst : Option (List Str)) (ds : List Str)
    (hp : path ∉ ds) :
    let N' := setChildOrder N path old co lower refs inst ds
    N'.order path = compOrder old co lower (N.order path) refs inst ∧ N'.kids = N.kids ∧
      ∀ q, q ≠ path → q ∉ ds → N'.order q = N.order q := by
  unfold setChildOrder
  refine ⟨?_, (propagate_lay _ _ ds _).1, fun q h1 h2 => ?_⟩
  · rw [(propagate_lay _ _ ds _).2 path hp]
    exact if_pos rfl
  · rw [(propagate_lay _ _ ds _).2 q h2]
    exact if_neg h1

/-! ## C95 -/

theorem revert_fold (kids acc : List Str) (hk : kids.Nodup) :
    kids.foldl (fun acc n => if n ∈ acc then acc else acc ++ [n]) acc = acc ++ kids.filter (· ∉ acc) := by
  induction kids generalizing acc with
  | nil => simp
  | cons k ks ih =>
    obtain ⟨h1, h2⟩ := List.nodup_cons.1 hk
    rw [List.foldl_cons, ih _ h2]
    by_cases h : k ∈ acc
    · rw [if_pos h, List.filter_cons]
      simp [h]
    · rw [if_neg h, List.filter_cons]
      simp only [h, not_false_eq_true, decide_true, if_true]
      rw [List.append_assoc, List.singleton_append]
      congr 2
      apply List.filter_congr
      intro x hx
      have : x ≠ k := fun e => h1 (e ▸ hx)
      simp [this]

/-- C95: the reverted order has exactly the children in the layer, each once, in the order of the composite
layer, those not listed there at the end. -/
theorem C95_reverted (comp : List Str) (there : Str → Bool) (kids : List Str) (hc : comp.Nodup) (hk : kids.Nodup)
    (ht : ∀ n, there n = true ↔ n ∈ kids) :
    reverted comp there kids = within kids comp ++ kids.filter (· ∉ comp) ∧ (reverted comp there kids).Perm kids := by
  have e1 : comp.filter there = within kids comp := by
    unfold within
    apply List.filter_congr
    intro x _
    by_cases h : x ∈ kids
    · simp [h, (ht x).2 h]
    · have : there x = false := by
        cases hh : there x
        · rfl
        · exact absurd ((ht x).1 hh) h
      simp [h, this]
  have e : reverted comp there kids = within kids comp ++ kids.filter (· ∉ comp) := by
    unfold reverted
    rw [revert_fold kids _ hk, e1]
    congr 1
    apply List.filter_congr
    intro x hx
    unfold within
    simp [hx]
  refine ⟨e, ?_⟩
  have := C94_ordered comp kids hk hc
  rw [e, ← this.2]
  exact this.1

/-- C95 fails: edits of the layer are not removed.  The order of the composite node begins with that of the
strongest layer, so an order naming all children there is given back as it is. -/
theorem C95_kept_violation (loc : List Str) (lower : List Str) (there : Str → Bool) (kids : List Str)
    (hl : loc.Nodup) (hw : lower.Nodup) (hp : loc.Perm kids) (ht : ∀ n, there n = true ↔ n ∈ kids) :
    reverted (listMerger loc lower) there kids = loc := by
  have hk := hp.nodup_iff.1 hl
  obtain ⟨h1, h2⟩ := C15_union_nodup loc lower hl hw
  rw [(C95_reverted _ there kids h1 hk ht).1]
  have h3 : kids.filter (· ∉ listMerger loc lower) = [] := by
    rw [List.filter_eq_nil_iff]
    intro x hx
    have : x ∈ listMerger loc lower := (h2 x).2 (.inl (hp.mem_iff.2 hx))
    simp [this]
  rw [h3, List.append_nil]
  have h4 : within kids (listMerger loc lower) = within loc (listMerger loc lower) := by
    unfold within
    apply List.filter_congr
    intro x _
    simp [hp.mem_iff]
  rw [h4]
  have h5 : (within loc loc).Sublist (within loc (listMerger loc lower)) := (C15_base_order loc lower hl).filter _
  have h6 : within loc loc = loc := by
    unfold within
    exact List.filter_eq_self.2 (fun x hx => by simp [hx])
  rw [h6] at h5
  refine (h5.eq_of_length_le ?_).symm
  refine Dirty.length_le_of_nodup (h1.filter _) (fun x hx => ?_)
  simpa using (List.mem_filter.1 hx).2

/-- The order of the weaker layer is not restored. -/
example : reverted (listMerger (nm "ba") (nm "ab")) (· ∈ nm "ab") (nm "ab") = nm "ba" := by decide +kernel
example : reverted (nm "xbya") (· ∈ nm "abc") (nm "abc") = nm "bac" := by decide +kernel

end Nxt.Props
