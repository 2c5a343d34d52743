import Verif.Lemmas.Edit
/-!
# Lemmas about adding and deleting nodes
-/
namespace Nxt.Edit
open Dict Spec Path

/-- A new node at a free path. -/
theorem Linked.add {st : St} (L : Linked st) {p : Str} {i : Nat} (hp : p ∉ keys st.byPath) (hi : i ∉ keys st.byNode)
    (obj : Nat → NodeObj) (ho : ∀ j, j ≠ i → (obj j).name = (st.obj j).name ∧ (obj j).parent = (st.obj j).parent)
    (hpl : Placed p (obj i)) :
    Linked { st with obj := obj, byPath := Dict.set p i st.byPath, byNode := Dict.set i p st.byNode } := by
  have hpn := get?_eq_none.2 hp
  have hin := get?_eq_none.2 hi
  refine ⟨ok_set L.okPath _ _, ok_set L.okNode _ _, ?_, ?_⟩
  · intro q j
    show get? q (Dict.set p i st.byPath) = some j ↔ get? j (Dict.set i p st.byNode) = some q
    rw [get?_set, get?_set]
    by_cases hq : q = p
    · subst hq
      rw [if_pos rfl]
      by_cases hj : j = i
      · simp [hj]
      · rw [if_neg hj, ← L.inv, hpn]
        simp [Ne.symm hj]
    · rw [if_neg hq]
      by_cases hj : j = i
      · subst hj
        rw [if_pos rfl, L.inv, hin]
        simp [Ne.symm hq]
      · rw [if_neg hj, L.inv]
  · intro q j hq
    have hq' : get? q (Dict.set p i st.byPath) = some j := hq
    rw [get?_set] at hq'
    split at hq'
    · rename_i h
      obtain rfl := Option.some.inj hq'
      rw [h]; exact hpl
    · have hj : j ≠ i := by
        rintro rfl
        rw [L.inv, hin] at hq'
        exact nomatch hq'
      exact placed_congr (L.placed _ _ hq') (ho j hj).1 (ho j hj).2

/-- A node goes. -/
theorem Linked.remove {st : St} (L : Linked st) {p : Str} {i : Nat} (h : get? p st.byPath = some i)
    (obj : Nat → NodeObj) (ho : SamePlace obj st.obj) :
    Linked { st with obj := obj, byPath := Dict.erase p st.byPath, byNode := Dict.erase i st.byNode } := by
  have hi := (L.inv _ _).1 h
  refine ⟨ok_erase L.okPath _, ok_erase L.okNode _, ?_, ?_⟩
  · intro q j
    show get? q (Dict.erase p st.byPath) = some j ↔ get? j (Dict.erase i st.byNode) = some q
    rw [get?_erase L.okPath, get?_erase L.okNode]
    by_cases hq : q = p
    · subst hq
      rw [if_pos rfl]
      by_cases hj : j = i
      · simp [hj]
      · rw [if_neg hj, ← L.inv, h]
        simp [Ne.symm hj]
    · rw [if_neg hq]
      by_cases hj : j = i
      · subst hj
        rw [if_pos rfl, L.inv, hi]
        simp [Ne.symm hq]
      · rw [if_neg hj, L.inv]
  · intro q j hq
    have hq' : get? q (Dict.erase p st.byPath) = some j := hq
    rw [get?_erase L.okPath] at hq'
    split at hq'
    · exact nomatch hq'
    · exact placed_congr (L.placed _ _ hq') (ho j).1 (ho j).2

theorem tableEntry_unique {st : St} (L : Linked st) {i : Nat} {p : Str} (h : get? i st.byNode = some p) (ns : List Str) :
    TableEntry st ns i ↔ ns = toNamespace p := by
  obtain ⟨ms, hms, rfl⟩ := placed_shape (L.placed _ _ ((L.inv _ _).2 h))
  rw [toNamespace_render hms]
  unfold TableEntry
  rw [h]
  by_cases h0 : ms = []
  · subst h0
    rw [if_pos rfl]
    constructor
    · rintro (⟨h, -⟩ | ⟨h1, h2, h3⟩)
      · exact h
      · exact absurd (render_inj names_nil h2 (Option.some.inj h3)).symm h1
    · intro h; exact .inl ⟨h, rfl⟩
  · rw [if_neg h0]
    constructor
    · rintro (⟨h1, h2⟩ | ⟨h1, h2, h3⟩)
      · exact absurd ((render_eq_world hms).1 (Option.some.inj h2)) h0
      · exact (render_inj hms h2 (Option.some.inj h3)).symm
    · rintro rfl; exact .inr ⟨h0, hms, rfl⟩

/-- The namespace belongs to one path. -/
theorem tableEntry_iff {st : St} (L : Linked st) (ns : List Str) (i : Nat) :
    TableEntry st ns i ↔ ∃ p, get? i st.byNode = some p ∧ ns = toNamespace p := by
  cases h : get? i st.byNode with
  | none => unfold TableEntry; simp [h]
  | some p => rw [tableEntry_unique L h]; simp

/-- `add_node`, at a free path. -/
theorem addNode_spec {st : St} (K : LayerOk st) {i : Nat} {par : List Str} {x : Str} (order : List Str)
    (hn : Names (par ++ [x])) (hfree : render (par ++ [x]) ∉ keys st.byPath) (hi : i ∉ keys st.byNode) :
    LayerOk (addNode st i (render par) x order) ∧
    ∀ p, get? p (addNode st i (render par) x order).byPath = if p = render (par ++ [x]) then some i else get? p st.byPath := by
  have hjoin : joinNodePath (render par) x = render (par ++ [x]) := (Props.C09_parent_name_join par x hn).2.2.1
  have hst : addNode st i (render par) x order = { st with
      obj := upd st.obj i (fun _ => ⟨x, render par, order⟩)
      specs := st.specs ++ [i]
      byPath := Dict.set (render (par ++ [x])) i st.byPath
      byNode := Dict.set i (render (par ++ [x])) st.byNode
      table := st.table ++ [(toNamespace (render (par ++ [x])), i)] } := by
    unfold addNode
    simp only [hjoin]
  have L1 := Linked.add K.toLinked hfree hi (upd st.obj i (fun _ => ⟨x, render par, order⟩))
    (fun j hj => by rw [upd_ne hj]; exact ⟨rfl, rfl⟩) (by rw [upd_same]; exact .inr ⟨par, x, hn, rfl, rfl, rfl⟩)
  rw [hst]
  generalize hs1 : ({ st with
      obj := upd st.obj i (fun _ => ⟨x, render par, order⟩)
      specs := st.specs ++ [i]
      byPath := Dict.set (render (par ++ [x])) i st.byPath
      byNode := Dict.set i (render (par ++ [x])) st.byNode
      table := st.table ++ [(toNamespace (render (par ++ [x])), i)] } : St) = st1
  have L1' : Linked st1 := by subst hs1; exact ⟨L1.okPath, L1.okNode, L1.inv, L1.placed⟩
  have hbn : st1.byNode = Dict.set i (render (par ++ [x])) st.byNode := by subst hs1; rfl
  have hnot : ∀ ns, (ns, i) ∉ st.table := by
    intro ns hm
    rcases (K.table ns i).1 hm with ⟨_, h⟩ | ⟨_, _, h⟩ <;> exact hi (get?_isSome.1 (by rw [h]; rfl))
  refine ⟨⟨⟨L1', ?_, ?_⟩, ?_, ?_⟩, ?_⟩
  · subst hs1
    show ((st.table ++ [_]).map Prod.snd).Nodup
    rw [List.map_append, List.nodup_append]
    refine ⟨K.tableNodup, by simp, ?_⟩
    intro a ha b hb he
    simp only [List.map_cons, List.map_nil, List.mem_singleton] at hb
    subst hb
    subst he
    obtain ⟨⟨ns, j⟩, h1, h2⟩ := List.mem_map.1 ha
    simp only at h2
    subst h2
    exact hnot _ h1
  · intro ns j
    rw [tableEntry_iff L1', hbn]
    have ht : st1.table = st.table ++ [(toNamespace (render (par ++ [x])), i)] := by subst hs1; rfl
    rw [ht, List.mem_append, List.mem_singleton, get?_set, K.table, tableEntry_iff K.toLinked]
    by_cases hj : j = i
    · subst hj
      rw [get?_eq_none.2 hi]
      simp
    · simp [hj]
  · subst hs1
    show (st.specs ++ [i]).Nodup
    rw [List.nodup_append]
    refine ⟨K.specsNodup, by simp, ?_⟩
    intro a ha b hb he
    rw [List.mem_singleton] at hb
    subst hb; subst he
    exact hi ((K.specs _).1 ha)
  · intro j
    rw [hbn, mem_keys_set]
    subst hs1
    show j ∈ st.specs ++ [i] ↔ _
    rw [List.mem_append, K.specs, List.mem_singleton, or_comm]
  · intro p
    subst hs1
    show get? p (Dict.set _ _ _) = _
    rw [get?_set]

/-- `add_node_to_comp_layer`, at a free path. -/
theorem addComp_spec {st : St} (K : TablesOk st) {i : Nat} {p : Str} (addOrder : Bool) (hpl : Placed p (st.obj i))
    (hfree : p ∉ keys st.byPath) (hi : i ∉ keys st.byNode) :
    TablesOk (addComp st p i addOrder) ∧
    ∀ q, get? q (addComp st p i addOrder).byPath = if q = p then some i else get? q st.byPath := by
  have hst : ∃ obj, addComp st p i addOrder = { st with
      obj := obj
      table := st.table ++ [(toNamespace p, i)]
      byPath := Dict.set p i st.byPath
      byNode := Dict.set i p st.byNode } ∧ SamePlace obj st.obj := by
    unfold addComp
    simp only
    split
    · exact ⟨_, rfl, samePlace_refl _⟩
    · split
      · exact ⟨_, rfl, samePlace_refl _⟩
      · exact ⟨_, rfl, samePlace_upd _ _ _⟩
  obtain ⟨obj, hst, hs⟩ := hst
  have L1 := Linked.add K.toLinked hfree hi obj (fun j _ => hs j) (placed_congr hpl (hs i).1 (hs i).2)
  rw [hst]
  generalize hs1 : ({ st with
      obj := obj
      table := st.table ++ [(toNamespace p, i)]
      byPath := Dict.set p i st.byPath
      byNode := Dict.set i p st.byNode } : St) = st1
  have L1' : Linked st1 := by subst hs1; exact ⟨L1.okPath, L1.okNode, L1.inv, L1.placed⟩
  have hbn : st1.byNode = Dict.set i p st.byNode := by subst hs1; rfl
  have hnot : ∀ ns, (ns, i) ∉ st.table := by
    intro ns hm
    rcases (K.table ns i).1 hm with ⟨_, h⟩ | ⟨_, _, h⟩ <;> exact hi (get?_isSome.1 (by rw [h]; rfl))
  refine ⟨⟨L1', ?_, ?_⟩, ?_⟩
  · subst hs1
    show ((st.table ++ [_]).map Prod.snd).Nodup
    rw [List.map_append, List.nodup_append]
    refine ⟨K.tableNodup, by simp, ?_⟩
    intro a ha b hb he
    simp only [List.map_cons, List.map_nil, List.mem_singleton] at hb
    subst hb
    subst he
    obtain ⟨⟨ns, j⟩, h1, h2⟩ := List.mem_map.1 ha
    simp only at h2
    subst h2
    exact hnot _ h1
  · intro ns j
    rw [tableEntry_iff L1', hbn]
    have ht : st1.table = st.table ++ [(toNamespace p, i)] := by subst hs1; rfl
    rw [ht, List.mem_append, List.mem_singleton, get?_set, K.table, tableEntry_iff K.toLinked]
    by_cases hj : j = i
    · subst hj
      rw [get?_eq_none.2 hi]
      simp
    · simp [hj]
  · intro q
    subst hs1
    show get? q (Dict.set _ _ _) = _
    rw [get?_set]

/-- `remove_node_from_comp_layer`. -/
theorem removeComp_spec {st : St} (K : TablesOk st) {i : Nat} {p : Str} (rmOrder rmData : Bool)
    (h : get? p st.byPath = some i) :
    ∃ st', removeComp st p i rmOrder rmData = some st' ∧ TablesOk st' ∧
    (∀ q, get? q st'.byPath = if q = p then none else get? q st.byPath) ∧ ∀ j, j ∈ keys st'.byNode ↔ j ≠ i ∧ j ∈ keys st.byNode := by
  have hi := (K.inv _ _).1 h
  have hin : (toNamespace p, i) ∈ st.table := (K.table _ _).2 ((tableEntry_unique K.toLinked hi _).2 rfl)
  have hst : ∃ obj col, removeComp st p i rmOrder rmData = some { st with
      obj := obj
      table := st.table.erase (toNamespace p, i)
      byPath := Dict.erase p st.byPath
      byNode := Dict.erase i st.byNode
      collapse := col } ∧ SamePlace obj st.obj := by
    unfold removeComp
    rw [if_pos ⟨hin, by rw [h]; rfl, by rw [hi]; rfl⟩]
    simp only
    cases (if rmOrder = true then get? (st.obj i).parent (Dict.erase p st.byPath) else none) with
    | none => cases rmData <;> exact ⟨_, _, rfl, samePlace_refl _⟩
    | some q => cases rmData <;> exact ⟨_, _, rfl, samePlace_upd _ _ _⟩
  obtain ⟨obj, col, hst, hs⟩ := hst
  have L1 := Linked.remove K.toLinked h obj hs
  refine ⟨_, hst, ?_, ?_, ?_⟩
  · generalize hs1 : ({ st with
      obj := obj
      table := st.table.erase (toNamespace p, i)
      byPath := Dict.erase p st.byPath
      byNode := Dict.erase i st.byNode
      collapse := col } : St) = st1
    have L1' : Linked st1 := by subst hs1; exact ⟨L1.okPath, L1.okNode, L1.inv, L1.placed⟩
    have hbn : st1.byNode = Dict.erase i st.byNode := by subst hs1; rfl
    have ht : st1.table = st.table.erase (toNamespace p, i) := by subst hs1; rfl
    have hnd : st.table.Nodup := (List.pairwise_map.1 K.tableNodup).imp (fun h e => h (by rw [e]))
    refine ⟨L1', ?_, ?_⟩
    · rw [ht]
      exact (List.erase_sublist.map _).nodup K.tableNodup
    · intro ns j
      rw [tableEntry_iff L1', hbn, ht, hnd.mem_erase_iff, K.table, tableEntry_iff K.toLinked, get?_erase K.okNode]
      by_cases hj : j = i
      · subst hj
        rw [if_pos rfl, hi]
        simp
      · simp [hj]
  · intro q
    show get? q (Dict.erase _ _) = _
    rw [get?_erase K.okPath]
  · intro j
    show j ∈ keys (Dict.erase _ _) ↔ _
    rw [mem_keys_erase K.okNode]

/-- One path of `delete_node`. -/
theorem deleteStep_spec {st : St} (L : Linked st) (hs : st.specs.Nodup ∧ ∀ i, i ∈ st.specs ↔ i ∈ keys st.byNode)
    (pop rm : Bool) {p : Str} {i : Nat} (h : get? p st.byPath = some i) :
    ∃ st', deleteStep pop rm (.ok st) p = .ok st' ∧ Linked st' ∧ (st'.specs.Nodup ∧ ∀ i, i ∈ st'.specs ↔ i ∈ keys st'.byNode) ∧
      (∀ q, get? q st'.byPath = if q = p then none else get? q st.byPath) ∧ st'.table = st.table ∧
      st'.positions = (if rm then Dict.erase p st.positions else st.positions) ∧
      st'.collapse = (if rm then Dict.erase p st.collapse else st.collapse) := by
  have hi := (L.inv _ _).1 h
  have hin : i ∈ st.specs := (hs.2 i).2 (get?_isSome.1 (by rw [hi]; rfl))
  have hst : ∃ obj, deleteStep pop rm (.ok st) p = .ok { st with
      obj := obj
      specs := st.specs.erase i
      byPath := Dict.erase p st.byPath
      byNode := Dict.erase i st.byNode
      positions := (if rm then Dict.erase p st.positions else st.positions)
      collapse := (if rm then Dict.erase p st.collapse else st.collapse) } ∧ SamePlace obj st.obj := by
    unfold deleteStep
    simp only [h, hin, not_true, if_false, hi, Option.isNone_some, Bool.false_eq_true]
    cases get? (st.obj i).parent (Dict.erase p st.byPath) with
    | none => cases rm <;> exact ⟨_, rfl, samePlace_refl _⟩
    | some q =>
      cases pop with
      | true => cases rm <;> exact ⟨_, rfl, samePlace_upd _ _ _⟩
      | false => cases rm <;> exact ⟨_, rfl, samePlace_refl _⟩
  obtain ⟨obj, hst, hsp⟩ := hst
  have L1 := Linked.remove L h obj hsp
  refine ⟨_, hst, ⟨L1.okPath, L1.okNode, L1.inv, L1.placed⟩, ⟨hs.1.erase _, ?_⟩, ?_, rfl, rfl, rfl⟩
  · intro j
    show j ∈ st.specs.erase i ↔ j ∈ keys (Dict.erase i st.byNode)
    rw [hs.1.mem_erase_iff, mem_keys_erase L.okNode, hs.2]
  · intro q
    show get? q (Dict.erase _ _) = _
    rw [get?_erase L.okPath]

/-- All paths of `delete_node`, when each is a node. -/
theorem deleteLoop_spec (pop rm : Bool) : ∀ (ps : List Str) (st : St), Linked st →
    (st.specs.Nodup ∧ ∀ i, i ∈ st.specs ↔ i ∈ keys st.byNode) → ps.Nodup → (∀ p ∈ ps, p ∈ keys st.byPath) →
    ∃ st', ps.foldl (deleteStep pop rm) (.ok st) = .ok st' ∧ Linked st' ∧
      (st'.specs.Nodup ∧ ∀ i, i ∈ st'.specs ↔ i ∈ keys st'.byNode) ∧
      (∀ q, get? q st'.byPath = if q ∈ ps then none else get? q st.byPath) ∧
      (rm = true → Ok st.positions → ∀ q, get? q st'.positions = if q ∈ ps then none else get? q st.positions) ∧
      (rm = true → Ok st.collapse → ∀ q, get? q st'.collapse = if q ∈ ps then none else get? q st.collapse) := by
  intro ps
  induction ps with
  | nil => intro st L hs _ _; exact ⟨st, rfl, L, hs, by simp, by simp, by simp⟩
  | cons p ps ih =>
    intro st L hs hn hk
    rw [List.nodup_cons] at hn
    obtain ⟨i, hi⟩ := Option.isSome_iff_exists.1 (get?_isSome.2 (hk p (List.mem_cons_self ..)))
    obtain ⟨st1, a, b, c, d, e, f, g⟩ := deleteStep_spec L hs pop rm hi
    obtain ⟨st', a', b', c', d', f', g'⟩ := ih st1 b c hn.2 (by
      intro q hq
      have hne : q ≠ p := by rintro rfl; exact hn.1 hq
      have := hk q (List.mem_cons_of_mem _ hq)
      rw [← get?_isSome] at this ⊢
      rw [d q, if_neg hne]
      exact this)
    refine ⟨st', by rw [List.foldl_cons, a]; exact a', b', c', ?_, ?_, ?_⟩
    · intro q
      rw [d' q, d q]
      by_cases hq : q = p <;> by_cases hq2 : q ∈ ps <;> simp [hq, hq2]
    · intro hr ho q
      subst hr
      rw [if_pos rfl] at f
      rw [f' rfl (by rw [f]; exact ok_erase ho _) q, f, get?_erase ho]
      by_cases hq : q = p <;> by_cases hq2 : q ∈ ps <;> simp [hq, hq2]
    · intro hr ho q
      subst hr
      rw [if_pos rfl] at g
      rw [g' rfl (by rw [g]; exact ok_erase ho _) q, g, get?_erase ho]
      by_cases hq : q = p <;> by_cases hq2 : q ∈ ps <;> simp [hq, hq2]

end Nxt.Edit
