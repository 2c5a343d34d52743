import Verif.Lemmas.Dict
import Verif.Props.Lists
import Verif.Lemmas.NodeSave
import Verif.Spec.Comp
import Verif.Spec.Files
/-!
# Lemmas about composition
-/
namespace Nxt.Comp
open Dict NodeData Spec

theorem ok_addLayer {m : Dict Str (List (Dict Str Val))} (h : Ok m) (layer : LayerNodes) :
    Ok (addLayer m layer) := by
  unfold addLayer
  induction layer generalizing m with
  | nil => exact h
  | cons e l ih => exact ih (ok_set h _ _)

theorem get?_addLayer (m : Dict Str (List (Dict Str Val))) (layer : LayerNodes) (hl : Ok layer) (p : Str) :
    get? p (addLayer m layer) =
      match get? p layer with
      | none => get? p m
      | some n => some ((get? p m).getD [] ++ [n]) := by
  unfold addLayer
  induction layer generalizing m with
  | nil => rfl
  | cons e l ih =>
    obtain ⟨k, n⟩ := e
    have hk : k ∉ keys l ∧ Ok l := List.nodup_cons.1 hl
    rw [List.foldl_cons, ih _ hk.2]
    by_cases hp : k = p
    · subst hp
      rw [get?_eq_none.2 hk.1]
      simp only [get?, if_true]
      rw [get?_set, if_pos rfl]
    · have e1 : get? p ((k, n) :: l) = get? p l := by rw [get?, if_neg hp]
      rw [e1]
      simp only
      rw [get?_set, if_neg (Ne.symm hp)]

theorem keys_addLayer (m : Dict Str (List (Dict Str Val))) (layer : LayerNodes) (p : Str) :
    p ∈ keys (addLayer m layer) ↔ p ∈ keys m ∨ p ∈ keys layer := by
  unfold addLayer
  induction layer generalizing m with
  | nil => simp [keys]
  | cons e l ih =>
    rw [List.foldl_cons, ih, mem_keys_set]
    have : p ∈ keys (e :: l) ↔ p = e.1 ∨ p ∈ keys l := by unfold keys; rw [List.map_cons, List.mem_cons]
    rw [this]
    constructor
    · rintro ((h | h) | h)
      · exact .inr (.inl h)
      · exact .inl h
      · exact .inr (.inr h)
    · rintro (h | h | h)
      · exact .inl (.inr h)
      · exact .inl (.inl h)
      · exact .inr h

theorem baseMapping_spec (layers : List LayerNodes) (hl : ∀ l ∈ layers, Ok l) :
    Ok (baseMapping layers) ∧ ∀ p, get? p (baseMapping layers) =
      if stack layers p = [] then none else some (stack layers p) := by
  have key : ∀ (layers : List LayerNodes) (m : Dict Str (List (Dict Str Val))), (∀ l ∈ layers, Ok l) → Ok m →
      Ok (layers.foldl addLayer m) ∧ ∀ p, get? p (layers.foldl addLayer m) =
        if stack layers p = [] then get? p m else some ((get? p m).getD [] ++ stack layers p) := by
    intro layers
    induction layers with
    | nil => intro m _ h; exact ⟨h, fun p => by simp [stack]⟩
    | cons l ls ih =>
      intro m hl hm
      obtain ⟨h1, h2⟩ := ih (addLayer m l) (fun x hx => hl x (List.mem_cons_of_mem _ hx)) (ok_addLayer hm l)
      refine ⟨h1, fun p => ?_⟩
      rw [List.foldl_cons, h2, get?_addLayer m l (hl l List.mem_cons_self)]
      unfold stack
      cases hg : get? p l with
      | none => rw [List.filterMap_cons_none hg]
      | some n =>
        rw [List.filterMap_cons_some hg]
        simp only [reduceCtorEq, if_false, Option.getD_some, List.append_assoc, List.cons_append, List.nil_append]
        split
        · rename_i h; rw [h]
        · rfl
  obtain ⟨h1, h2⟩ := key layers [] hl ok_nil
  refine ⟨h1, fun p => ?_⟩
  rw [baseMapping, h2]
  rfl

/-- Names of tracked attributes and their sources. -/
theorem overload_names : (∀ a ∈ OVERLOAD, ∀ b ∈ OVERLOAD, a ≠ b ++ M_SOURCE) ∧ A_CHILD_ORDER ∉ OVERLOAD ∧
    (∀ b ∈ OVERLOAD, A_CHILD_ORDER ≠ b ++ M_SOURCE) ∧ (∀ b ∈ OVERLOAD, A_NAME ≠ b ++ M_SOURCE) ∧
    A_NAME ∉ OVERLOAD ∧ A_NAME ≠ A_CHILD_ORDER := by
  refine ⟨by decide +kernel, by decide +kernel, by decide +kernel, by decide +kernel, by decide +kernel,
    by decide +kernel⟩

theorem mem_overload (a : Str) : a ∈ OVERLOAD ↔ a ∈ opinionAttrs := List.Perm.mem_iff (by decide +kernel)

theorem source_inj {a b : Str} (h : a ++ M_SOURCE = b ++ M_SOURCE) : a = b := List.append_cancel_right h

/-- One base, looked up at a tracked attribute, at its source, and elsewhere. -/
theorem get?_overloadAttrs (path : Str) (n own : Dict Str Val) (attrs : List Str) (hs : ∀ a ∈ attrs, a ∈ OVERLOAD)
    (x : Str) :
    (x ∈ OVERLOAD → get? x (attrs.foldl (overloadAttr path n) own) =
      if x ∈ attrs ∧ (getAttr n x).hasOpinion then some (getAttr n x) else get? x own) ∧
    (x ∈ OVERLOAD → get? (x ++ M_SOURCE) (attrs.foldl (overloadAttr path n) own) =
      if x ∈ attrs ∧ (getAttr n x).hasOpinion then some (.src (srcLayer n) path) else get? (x ++ M_SOURCE) own) ∧
    ((x ∉ OVERLOAD) → (∀ b ∈ OVERLOAD, x ≠ b ++ M_SOURCE) →
      get? x (attrs.foldl (overloadAttr path n) own) = get? x own) := by
  obtain ⟨hn, -⟩ := overload_names
  induction attrs generalizing own with
  | nil => simp
  | cons a as ih =>
    have ha := hs a List.mem_cons_self
    obtain ⟨i1, i2, i3⟩ := ih (overloadAttr path n own a) (fun b hb => hs b (List.mem_cons_of_mem _ hb))
    have g1 : x ∈ OVERLOAD → get? x (overloadAttr path n own a) =
        if x = a ∧ (getAttr n x).hasOpinion then some (getAttr n x) else get? x own := by
      intro hx
      unfold overloadAttr
      by_cases ho : (getAttr n a).hasOpinion = true
      · rw [if_pos ho, get?_set, if_neg (hn x hx a ha), get?_set]
        by_cases hxa : x = a
        · subst hxa; rw [if_pos rfl, if_pos ⟨rfl, ho⟩]
        · rw [if_neg hxa, if_neg (fun h => hxa h.1)]
      · rw [if_neg ho, if_neg]
        rintro ⟨rfl, h⟩; exact ho h
    have g2 : x ∈ OVERLOAD → get? (x ++ M_SOURCE) (overloadAttr path n own a) =
        if x = a ∧ (getAttr n x).hasOpinion then some (.src (srcLayer n) path) else get? (x ++ M_SOURCE) own := by
      intro hx
      unfold overloadAttr
      by_cases ho : (getAttr n a).hasOpinion = true
      · rw [if_pos ho, get?_set]
        by_cases hxa : x = a
        · subst hxa; rw [if_pos rfl, if_pos ⟨rfl, ho⟩]
        · rw [if_neg (fun h => hxa (source_inj h)), if_neg (fun h => hxa h.1), get?_set,
            if_neg (Ne.symm (hn a ha x hx))]
      · rw [if_neg ho, if_neg]
        rintro ⟨rfl, h⟩; exact ho h
    refine ⟨fun hx => ?_, fun hx => ?_, fun hx hx' => ?_⟩
    · rw [List.foldl_cons, i1 hx, g1 hx]
      by_cases ho : (getAttr n x).hasOpinion = true
      · by_cases h1 : x ∈ as <;> by_cases h2 : x = a <;> simp [h1, h2, ho, List.mem_cons]
        · subst h2; simp [ho]
        · subst h2; simp [ho]
      · simp [ho]
    · rw [List.foldl_cons, i2 hx, g2 hx]
      by_cases ho : (getAttr n x).hasOpinion = true
      · by_cases h1 : x ∈ as <;> by_cases h2 : x = a <;> simp [h1, h2, ho, List.mem_cons]
        · subst h2; simp [ho]
        · subst h2; simp [ho]
      · simp [ho]
    · rw [List.foldl_cons, i3 hx hx']
      unfold overloadAttr
      split
      · rw [get?_set, if_neg (hx' a ha), get?_set, if_neg (by rintro rfl; exact hx ha)]
      · rfl

/-- All bases: the strongest opinion is in the own table. -/
theorem overload_fold (path : Str) (bases : List (Dict Str Val)) (own : Dict Str Val) (co : List Str) (a : Str)
    (ha : a ∈ OVERLOAD) :
    let st := bases.reverse.foldl (overloadBase path) (own, co)
    get? a st.1 = (match strongest bases a with | some n => some (getAttr n a) | none => get? a own) ∧
    get? (a ++ M_SOURCE) st.1 =
      (match strongest bases a with | some n => some (.src (srcLayer n) path) | none => get? (a ++ M_SOURCE) own) := by
  induction bases with
  | nil => simp [strongest]
  | cons n ns ih =>
    simp only [List.reverse_cons, List.foldl_append, List.foldl_cons, List.foldl_nil]
    obtain ⟨i1, i2⟩ := ih
    generalize ns.reverse.foldl (overloadBase path) (own, co) = st at i1 i2
    obtain ⟨h1, h2, -⟩ := get?_overloadAttrs path n st.1 OVERLOAD (fun _ h => h) a
    have e : (overloadBase path st n).1 = OVERLOAD.foldl (overloadAttr path n) st.1 := rfl
    rw [e, h1 ha, h2 ha, i1, i2]
    unfold strongest
    by_cases ho : (getAttr n a).hasOpinion = true
    · rw [List.find?_cons_of_pos (p := fun n => (getAttr n a).hasOpinion) ho, if_pos ⟨ha, ho⟩, if_pos ⟨ha, ho⟩]
      exact ⟨rfl, rfl⟩
    · rw [List.find?_cons_of_neg (p := fun n => (getAttr n a).hasOpinion) ho, if_neg (fun h => ho h.2),
        if_neg (fun h => ho h.2)]
      exact ⟨rfl, rfl⟩

/-- The child orders merged from weak to strong. -/
theorem childOrder_fold (path : Str) (hp : path ≠ Path.WORLD) (own : Dict Str Val) (bases : List (Dict Str Val))
    (co : List Str) (hco : co.Nodup) (hb : ∀ n ∈ bases, (childOrder n).Nodup) :
    let st := bases.reverse.foldl (overloadBase path) (own, co)
    st.2.Nodup ∧ (∀ x, x ∈ st.2 ↔ x ∈ co ∨ ∃ n ∈ bases, x ∈ childOrder n) ∧
    (∀ n, bases.head? = some n → (childOrder n).Sublist st.2) := by
  induction bases with
  | nil => simp [hco]
  | cons n ns ih =>
    simp only [List.reverse_cons, List.foldl_append, List.foldl_cons, List.foldl_nil]
    obtain ⟨i1, i2, -⟩ := ih (fun m hm => hb m (List.mem_cons_of_mem _ hm))
    generalize ns.reverse.foldl (overloadBase path) (own, co) = st at i1 i2
    have e : (overloadBase path st n).2 = Lists.listMerger (childOrder n) st.2 := by
      unfold overloadBase; rw [if_neg hp]
    rw [e]
    have hn := hb n List.mem_cons_self
    obtain ⟨c1, c2⟩ := Props.C15_union_nodup (childOrder n) st.2 hn i1
    refine ⟨c1, fun x => ?_, ?_⟩
    · rw [c2, i2]
      simp only [List.mem_cons, exists_eq_or_imp]
      constructor
      · rintro (h | h | h)
        · exact .inr (.inl h)
        · exact .inl h
        · exact .inr (.inr h)
      · rintro (h | h | h)
        · exact .inr (.inl h)
        · exact .inl h
        · exact .inr (.inr h)
    · intro m hm
      cases hm
      exact Props.C15_base_order _ _ hn

theorem get?_compPre (layers : List LayerNodes) (hl : ∀ l ∈ layers, Ok l) (p : Str) :
    get? p (compPre layers) =
      if stack layers p = [] then none else some (compNode p (stack layers p)) := by
  have : ∀ m : Dict Str (List (Dict Str Val)), get? p (m.map (fun pb => (pb.1, compNode pb.1 pb.2)))
      = (get? p m).map (compNode p) := by
    intro m
    induction m with
    | nil => rfl
    | cons e m ih =>
      obtain ⟨k, v⟩ := e
      simp only [List.map_cons, get?]
      split
      · rename_i h; subst h; rfl
      · exact ih
  unfold compPre
  rw [this, (baseMapping_spec layers hl).2]
  split <;> rfl

theorem srcLayer_eq : srcLayer = sourceOf := rfl

theorem childOrder_eq : childOrder = listed := by
  funext n
  unfold childOrder listed names
  rw [show "_child_order".toList = A_CHILD_ORDER from rfl]
  generalize getAttr n A_CHILD_ORDER = v
  cases v <;> rfl

end Nxt.Comp
