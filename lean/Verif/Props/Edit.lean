import Verif.Lemmas.EditDel
import Verif.Lemmas.EditOrder
import Verif.Props.Names
/-!
# Property theorems about the edits of a layer (C55, C67, C68, C69)
-/
namespace Nxt.Props
open Dict Edit Spec Path

/-- C55: a node added at a free path leaves a consistent layer, with just that node more. -/
theorem C55_add (st : St) (K : LayerOk st) (i : Nat) (par : List Str) (x : Str) (order : List Str)
    (hn : Names (par ++ [x])) (hfree : render (par ++ [x]) ∉ keys st.byPath) (hi : i ∉ keys st.byNode) :
    LayerOk (addNode st i (render par) x order) ∧
    ∀ p, get? p (addNode st i (render par) x order).byPath =
      if p = render (par ++ [x]) then some i else get? p st.byPath := addNode_spec K order hn hfree hi

/-- C55: adding at a path in use breaks the layer, for every layer and node. -/
theorem C55_overwrite_violation (st : St) (K : LayerOk st) (i k : Nat) (par : List Str) (x : Str) (order : List Str)
    (hn : Names (par ++ [x])) (hused : get? (render (par ++ [x])) st.byPath = some k) (hi : i ≠ k) :
    ¬ LayerOk (addNode st i (render par) x order) := by
  intro K'
  have hjoin : joinNodePath (render par) x = render (par ++ [x]) := (C09_parent_name_join par x hn).2.2.1
  have h1 : get? k (addNode st i (render par) x order).byNode = some (render (par ++ [x])) := by
    unfold addNode
    simp only [hjoin]
    rw [get?_set, if_neg (Ne.symm hi)]
    exact (K.inv _ _).1 hused
  have h2 := (K'.inv _ _).2 h1
  unfold addNode at h2
  simp only [hjoin] at h2
  rw [get?_set, if_pos rfl] at h2
  exact hi (Option.some.inj h2)

/-- C55: adding to a composite layer. -/
theorem C55_comp_add (st : St) (K : TablesOk st) (i : Nat) (p : Str) (addOrder : Bool) (hpl : Placed p (st.obj i))
    (hfree : p ∉ keys st.byPath) (hi : i ∉ keys st.byNode) :
    TablesOk (addComp st p i addOrder) ∧
    ∀ q, get? q (addComp st p i addOrder).byPath = if q = p then some i else get? q st.byPath :=
  addComp_spec K addOrder hpl hfree hi

/-- C55: removing from a composite layer. -/
theorem C55_comp_remove (st : St) (K : TablesOk st) (i : Nat) (p : Str) (rmOrder rmData : Bool)
    (h : get? p st.byPath = some i) :
    ∃ st', removeComp st p i rmOrder rmData = some st' ∧ TablesOk st' ∧
    (∀ q, get? q st'.byPath = if q = p then none else get? q st.byPath) ∧
    ∀ j, j ∈ keys st'.byNode ↔ j ≠ i ∧ j ∈ keys st.byNode := removeComp_spec K rmOrder rmData h

/-- C55: a composite layer stays consistent over any history of allowed edits. -/
theorem C55_comp_history (ops : List CompOp) (st : St) (K : TablesOk st) (A : CompAllowed ops st) :
    ∃ st', runComp ops st = some st' ∧ TablesOk st' := by
  induction ops generalizing st with
  | nil => exact ⟨st, rfl, K⟩
  | cons op ops ih =>
    cases op with
    | add p i o =>
      obtain ⟨h1, h2, h3, h4⟩ := A
      exact ih _ (addComp_spec K o h1 h2 h3).1 h4
    | remove p i o d =>
      obtain ⟨h1, h2⟩ := A
      obtain ⟨st', a, b, -⟩ := removeComp_spec K o d h1
      obtain ⟨st'', c, e⟩ := ih st' b (h2 st' a)
      exact ⟨st'', by unfold runComp; rw [a]; exact c, e⟩

/-- C67: moving nodes moves each with all below it and nothing else, and the layer stays consistent. -/
theorem C67_parent (st : St) (K : LayerOk st) (nodes : List (Nat × Str)) (par : List Str) (hne : nodes ≠ [])
    (C : CanMove st nodes par) :
    ∃ st', parentNodes st nodes (render par) = .ok st' ∧ LayerOk st' ∧ MovedSeq par nodes st st' ∧
      (∀ j, j ∈ keys st'.byNode ↔ j ∈ keys st.byNode) ∧ st'.positions = st.positions :=
  parentNodes_spec K.toLinked ⟨K.specsNodup, K.specs⟩ hne C

/-- C67: for one node: all paths at or below the old one move, all others stay. -/
theorem C67_parent_one (st : St) (K : LayerOk st) (i : Nat) (old par : List Str) (x : Str) (ho : Names old)
    (hi : get? (render old) st.byPath = some i) (hp : ¬ old <+: par) (hn : Names (par ++ [x]))
    (hu : Unused st (par ++ [x])) (h0 : old ≠ []) :
    ∃ st', parentNodes st [(i, x)] (render par) = .ok st' ∧ LayerOk st' ∧ Moved old (par ++ [x]) st st' := by
  obtain ⟨st', a, b, c, -⟩ := C67_parent st K [(i, x)] par (by simp) ⟨(names_append.1 hn).1,
    by simpa using hn x (by simp), by simp, by simp, by simpa using hu, by simpa using ⟨old, ho, h0, hi, hp⟩⟩
  refine ⟨st', a, b, ?_⟩
  cases c with
  | @cons i x old' rest st st1 st' h1 h2 h3 h4 h5 =>
    have : old' = old := render_inj h1 ho (Linked.inj K.toLinked h2 hi)
    subst this
    cases h5 with
    | nil h => intro ms j hms; rw [h]; exact h4 ms j hms

/-- C68: a change of name to a free name keeps the layer consistent and takes along the children which
are nodes, with all below them. -/
theorem C68_rename (st : St) (K : LayerOk st) (i : Nat) (par : List Str) (x name : Str) (hx : Names (par ++ [x]))
    (hi : get? (render (par ++ [x])) st.byPath = some i) (hn : IsName name) (hu : Unused st (par ++ [name])) :
    ∃ st', setNodeName st i name = .ok st' ∧ LayerOk st' ∧ Renamed (par ++ [x]) (par ++ [name]) st st' ∧
      (∀ j, j ∈ keys st'.byNode ↔ j ∈ keys st.byNode) ∧
      st'.positions = moveKey (render (par ++ [x])) (render (par ++ [name])) st.positions :=
  setNodeName_spec K hx hi hn hu

/-- C68: when every path below the node has its parent in the layer, the whole subtree moves.
Missing: layers with gaps, see the violation. -/
theorem C68_rename_subtree_partial (st : St) (K : LayerOk st) (i : Nat) (par : List Str) (x name : Str)
    (hx : Names (par ++ [x])) (hi : get? (render (par ++ [x])) st.byPath = some i) (hn : IsName name)
    (hu : Unused st (par ++ [name])) (hg : NoGaps st (par ++ [x])) :
    ∃ st', setNodeName st i name = .ok st' ∧ LayerOk st' ∧ Moved (par ++ [x]) (par ++ [name]) st st' := by
  obtain ⟨st', a, b, c, -⟩ := setNodeName_spec K hx hi hn hu
  refine ⟨st', a, b, fun ms j hms => (c ms j hms).trans ?_⟩
  have : ∀ ls, Names ls → get? (render ls) st.byPath = some j →
      renameTo st (par ++ [x]) (par ++ [name]) ls = relocate (par ++ [x]) (par ++ [name]) ls := by
    intro ls hls hj
    unfold renameTo relocate
    by_cases h : par ++ [x] <+: ls
    · rw [if_pos h, if_pos]
      obtain ⟨r, rfl⟩ := h
      cases r with
      | nil => exact .inl (by simp)
      | cons y r =>
        refine .inr ⟨y, r, rfl, hg [y] r ?_ ?_⟩
        · simpa using hls
        · have : par ++ [x] ++ [y] ++ r = par ++ [x] ++ y :: r := by simp
          rw [this]
          exact get?_isSome.1 (by rw [hj]; rfl)
    · rw [if_neg h, if_neg]
      rintro (h' | ⟨y, r, h', -⟩)
      · exact h (by rw [h']; exact List.prefix_refl _)
      · exact h (by rw [h']; exact List.prefix_append _ _)
  constructor
  · rintro ⟨ls, h1, h2, h3⟩; exact ⟨ls, h1, h2, by rw [h3, this ls h1 h2]⟩
  · rintro ⟨ls, h1, h2, h3⟩; exact ⟨ls, h1, h2, by rw [h3, this ls h1 h2]⟩

/-- C68: a node below a child which is no node of the layer stays at its old path. -/
theorem C68_gap_violation (st : St) (K : LayerOk st) (i j : Nat) (par rest : List Str) (x y name : Str)
    (hx : Names (par ++ [x])) (hi : get? (render (par ++ [x])) st.byPath = some i) (hn : IsName name)
    (hu : Unused st (par ++ [name])) (hl : Names (par ++ [x] ++ y :: rest))
    (hj : get? (render (par ++ [x] ++ y :: rest)) st.byPath = some j) (hy : render (par ++ [x] ++ [y]) ∉ keys st.byPath) :
    ∃ st', setNodeName st i name = .ok st' ∧ get? i st'.byNode = some (render (par ++ [name])) ∧
      get? j st'.byNode = some (render (par ++ [x] ++ y :: rest)) := by
  obtain ⟨st', a, b, c, -⟩ := setNodeName_spec K hx hi hn hu
  have hnew : Names (par ++ [name]) := names_append.2 ⟨(names_append.1 hx).1, by
    intro z hz; rw [List.mem_singleton.1 hz]; exact hn⟩
  refine ⟨st', a, (b.inv _ _).1 ((c _ _ hnew).2 ⟨_, hx, hi, ?_⟩), (b.inv _ _).1 ((c _ _ hl).2 ⟨_, hl, hj, ?_⟩)⟩
  · unfold renameTo
    rw [if_pos (.inl rfl)]
    simp
  · unfold renameTo
    rw [if_neg]
    rintro (h | ⟨y', r, h, hk⟩)
    · have := congrArg List.length h
      simp at this
    · have := List.append_cancel_left h
      simp only [List.cons.injEq] at this
      rw [← this.1] at hk
      exact hy hk

/-- C68: asking for the name a node already has gives it another one: its own path counts as taken. -/
theorem C68_own_name_violation (cc : Names.CharClass) (hcc : cc.Ok) (paths ps : List Str) (hps : Names ps) (x : Str)
    (hx : Names.wantedNodeName cc (some x) = some x) (hown : render (ps ++ [x]) ∈ paths) (fuel : Nat)
    (hf : paths.length + 2 ≤ fuel) (hx0 : x ≠ []) :
    ∃ k, 2 ≤ k ∧ Names.uniqueNodeName cc paths (render ps) (some x) fuel = .ok (x ++ Names.dec k) := by
  obtain ⟨want, r, h1, h2, -, -, -, -, h3⟩ := C18_unique_node_name cc hcc paths ps hps (some x) (by simpa using hx0) fuel hf
  rw [hx] at h1
  obtain rfl := Option.some.inj h1
  obtain ⟨k, hk, hr, -⟩ := h3 hown
  exact ⟨k, hk, by rw [h2, hr]⟩

/-- C69: deleting one node alone. -/
theorem C69_delete_one (st : St) (K : LayerOk st) (i : Nat) (desc : List Str) (rm : Bool) (p : Str)
    (hi : get? p st.byPath = some i) :
    ∃ st', deleteNode desc false rm st i = .ok st' ∧ LayerOk st' ∧
      (∀ q, get? q st'.byPath = if q = p then none else get? q st.byPath) ∧
      (rm = true → Ok st.positions → ∀ q, get? q st'.positions = if q = p then none else get? q st.positions) := by
  have hpath : joinNodePath (st.obj i).parent (st.obj i).name = p := by
    rcases K.placed _ _ hi with ⟨h, h1, h2⟩ | ⟨ns, x, p1, p2, p3, p4⟩
    · rw [h1, h2, h]; decide +kernel
    · rw [p3, p4, p2, (C09_parent_name_join ns x p1).2.2.1]
  obtain ⟨st', a, b, c, d, e, -⟩ := deleteLoop_spec (false || desc.isEmpty) rm [p] st K.toLinked ⟨K.specsNodup, K.specs⟩
    (by simp) (by simpa using get?_isSome.1 (by rw [hi]; rfl))
  refine ⟨refresh st', ?_, ⟨tablesOk_refresh b, c.1, c.2⟩, ?_, ?_⟩
  · unfold deleteNode
    simp only [hpath, Bool.false_eq_true, if_false]
    rw [a]
  · intro q; simpa [refresh] using d q
  · intro h1 h2 q; simpa [refresh] using e h1 h2 q

/-- The paths `delete_node` works through for a whole subtree. -/
theorem descendants_paths (st : St) (K : LayerOk st) (old : List Str) (ho : Names old) (h0 : old ≠ []) (fuel : Nat)
    (desc : List Str)
    (hd : Tree.descendants (tree st) (Tree.scan (fun a b => a == b) (tree st)) true fuel (render old) = some desc) :
    desc.Nodup ∧ ∀ q, q ∈ desc ↔ IsImpliedDescendant (tree st) (render old) q := by
  obtain ⟨N, hN⟩ := C47_descendants (tree st) _ (treeOk K.toLinked) (scanOk _) true old ho h0
  obtain ⟨r, h1, h2, h3⟩ := hN (max N fuel) (Nat.le_max_left ..)
  have hmono : ∀ (ch : Str → List Str) (f g : Nat) (d m r : List Str), f ≤ g → Tree.descLoop ch f d m = some r →
      Tree.descLoop ch g d m = some r := by
    intro ch f
    induction f with
    | zero => intro g d m r _ h; exact nomatch h
    | succ f ih =>
      intro g d m r hg h
      obtain ⟨g, rfl⟩ : ∃ k, g = k + 1 := ⟨g - 1, by omega⟩
      unfold Tree.descLoop at h ⊢
      split
      · rename_i hm; rw [if_pos hm] at h; exact h
      · rename_i hm; rw [if_neg hm] at h; exact ih _ _ _ _ (by omega) h
  have hw : render old ≠ WORLD := fun h => h0 ((render_eq_world ho).1 h)
  have : desc = r := by
    unfold Tree.descendants at hd h1
    rw [if_neg hw] at hd h1
    have := hmono _ _ _ _ _ _ (Nat.le_max_right N fuel) hd
    rw [h1] at this
    exact (Option.some.inj this).symm
  subst this
  exact ⟨h2, fun q => by rw [h3]; simp⟩

/-- C69: deleting a node with its descendants removes exactly the subtree, if no path in it is missing.
Missing: layers with gaps, see the violation. -/
theorem C69_delete_subtree_partial (st : St) (K : LayerOk st) (i : Nat) (old : List Str) (rm : Bool) (fuel : Nat)
    (desc : List Str) (ho : Names old) (h0 : old ≠ []) (hi : get? (render old) st.byPath = some i)
    (hd : Tree.descendants (tree st) (Tree.scan (fun a b => a == b) (tree st)) true fuel (render old) = some desc)
    (hg : NoGaps st old) :
    ∃ st', deleteNode desc true rm st i = .ok st' ∧ LayerOk st' ∧
      ∀ ms, Names ms → get? (render ms) st'.byPath = if old <+: ms then none else get? (render ms) st.byPath := by
  obtain ⟨dn, dm⟩ := descendants_paths st K old ho h0 fuel desc hd
  have hpath : joinNodePath (st.obj i).parent (st.obj i).name = render old := by
    rcases K.placed _ _ hi with ⟨h, h1, h2⟩ | ⟨ns, x, p1, p2, p3, p4⟩
    · rw [h1, h2, h]; decide +kernel
    · rw [p3, p4, p2, (C09_parent_name_join ns x p1).2.2.1]
  have hmem : ∀ ms, Names ms → (render ms ∈ render old :: desc ↔ ∃ r, ms = old ++ r ∧ (r = [] ∨
      ∃ more, Names (old ++ r ++ more) ∧ render (old ++ r ++ more) ∈ keys st.byPath)) := by
    intro ms hms
    rw [List.mem_cons, dm]
    constructor
    · rintro (h | ⟨ns, rest, more, a1, a2, a3, a4, a5⟩)
      · exact ⟨[], by simp [render_inj hms ho h], .inl rfl⟩
      · have e1 := render_inj ho (names_append.1 (names_append.1 a1).1).1 a3
        subst e1
        have e2 := render_inj hms (names_append.1 a1).1 a4
        exact ⟨rest, e2, .inr ⟨more, a1, by rw [tree_keys] at a5; exact a5⟩⟩
    · rintro ⟨r, rfl, h | ⟨more, h1, h2⟩⟩
      · subst h; exact .inl (by simp)
      · by_cases hr : r = []
        · subst hr; exact .inl (by simp)
        · exact .inr ⟨old, r, more, h1, hr, rfl, rfl, by rw [tree_keys]; exact h2⟩
  have hnot : render old ∉ desc := by
    rw [dm]
    rintro ⟨ns, rest, more, a1, a2, a3, a4, a5⟩
    have e1 := render_inj ho (names_append.1 (names_append.1 a1).1).1 a3
    subst e1
    have := render_inj ho (names_append.1 a1).1 a4
    exact a2 (by simpa using this)
  obtain ⟨st', a, b, c, d, -⟩ := deleteLoop_spec (true || desc.isEmpty) rm (render old :: desc) st K.toLinked
    ⟨K.specsNodup, K.specs⟩ (List.nodup_cons.2 ⟨hnot, dn⟩) (by
      intro p hp
      rcases List.mem_cons.1 hp with h | h
      · rw [h]; exact get?_isSome.1 (by rw [hi]; rfl)
      · obtain ⟨ns, rest, more, a1, a2, a3, a4, a5⟩ := (dm p).1 h
        have e1 := render_inj ho (names_append.1 (names_append.1 a1).1).1 a3
        subst e1
        rw [tree_keys] at a5
        rw [a4]
        exact hg rest more a1 a5)
  refine ⟨refresh st', ?_, ⟨tablesOk_refresh b, c.1, c.2⟩, ?_⟩
  · unfold deleteNode
    simp only [hpath, if_true]
    rw [a]
  · intro ms hms
    refine (d (render ms)).trans ?_
    by_cases hp : old <+: ms
    · rw [if_pos hp]
      split
      · rfl
      · rename_i hn
        rw [get?_eq_none]
        intro hk
        apply hn
        obtain ⟨r, rfl⟩ := hp
        rw [hmem _ hms]
        exact ⟨r, rfl, .inr ⟨[], by simpa using hms, by simpa using hk⟩⟩
    · rw [if_neg hp, if_neg]
      rw [hmem _ hms]
      rintro ⟨r, rfl, -⟩
      exact hp ⟨r, rfl⟩

theorem deleteLoop_table (pop rm : Bool) (ps : List Str) (st : St) :
    ∃ st', (ps.foldl (deleteStep pop rm) (.ok st) = .ok st' ∨ ps.foldl (deleteStep pop rm) (.ok st) = .raised st') ∧
      st'.table = st.table ∧ ∀ q, get? q st.byPath = none → get? q st'.byPath = none := by
  have hstay : ∀ (ps : List Str) (s : St), ps.foldl (deleteStep pop rm) (.raised s) = .raised s := by
    intro ps s
    induction ps with
    | nil => rfl
    | cons p ps ih => exact ih
  have herase : ∀ (d : Dict Str Nat) (p q : Str), get? q d = none → get? q (Dict.erase p d) = none := by
    intro d p q h
    rw [get?_eq_none] at h ⊢
    intro hk
    exact h (((erase_sublist d p).map Prod.fst).subset hk)
  induction ps generalizing st with
  | nil => exact ⟨st, .inl rfl, rfl, fun _ h => h⟩
  | cons p ps ih =>
    have : ∃ s, (deleteStep pop rm (.ok st) p = .ok s ∨ deleteStep pop rm (.ok st) p = .raised s) ∧ s.table = st.table ∧
        ∀ q, get? q st.byPath = none → get? q s.byPath = none := by
      unfold deleteStep
      simp only
      split
      · exact ⟨st, .inr rfl, rfl, fun _ h => h⟩
      · split
        · exact ⟨st, .inr rfl, rfl, fun _ h => h⟩
        · split
          · exact ⟨_, .inr rfl, rfl, fun q h => herase _ _ _ h⟩
          · refine ⟨_, .inl rfl, ?_, ?_⟩
            · cases rm <;> simp only [Bool.false_eq_true, if_false, if_true] <;> split <;> (try rfl) <;> split <;> rfl
            · intro q h
              cases rm <;> simp only [Bool.false_eq_true, if_false, if_true] <;> split <;>
                (try exact herase _ _ _ h) <;> split <;> exact herase _ _ _ h
    obtain ⟨s, h1, h2, h3⟩ := this
    rw [List.foldl_cons]
    rcases h1 with h1 | h1
    · rw [h1]
      obtain ⟨st', a, b, c⟩ := ih s
      exact ⟨st', a, b.trans h2, fun q h => c q (h3 q h)⟩
    · rw [h1, hstay]
      exact ⟨s, .inr rfl, h2, h3⟩

/-- C69: deleting a node with its descendants fails half way when some path below it is no node but has
one below: the node is gone from the dicts but still in the node table. -/
theorem C69_gap_violation (st : St) (K : LayerOk st) (i : Nat) (old a b : List Str) (rm : Bool) (fuel : Nat)
    (desc : List Str) (ho : Names old) (h0 : old ≠ []) (hi : get? (render old) st.byPath = some i)
    (hd : Tree.descendants (tree st) (Tree.scan (fun a b => a == b) (tree st)) true fuel (render old) = some desc)
    (hab : Names (old ++ a ++ b)) (hin : render (old ++ a ++ b) ∈ keys st.byPath) (hout : render (old ++ a) ∉ keys st.byPath) :
    ∃ st', deleteNode desc true rm st i = .raised st' ∧ get? (render old) st'.byPath = none ∧
      (old, i) ∈ st'.table ∧ ¬ TablesOk st' := by
  obtain ⟨dn, dm⟩ := descendants_paths st K old ho h0 fuel desc hd
  have hpath : joinNodePath (st.obj i).parent (st.obj i).name = render old := by
    rcases K.placed _ _ hi with ⟨h, h1, h2⟩ | ⟨ns, x, p1, p2, p3, p4⟩
    · rw [h1, h2, h]; decide +kernel
    · rw [p3, p4, p2, (C09_parent_name_join ns x p1).2.2.1]
  have ha : a ≠ [] := by
    rintro rfl
    rw [List.append_nil] at hout
    exact hout (get?_isSome.1 (by rw [hi]; rfl))
  have hgap : render (old ++ a) ∈ desc := (dm _).2 ⟨old, a, b, hab, ha, rfl, rfl, by rw [tree_keys]; exact hin⟩
  obtain ⟨st1, s1, s2, s3, s4, s5, -⟩ := deleteStep_spec K.toLinked ⟨K.specsNodup, K.specs⟩ (true || desc.isEmpty) rm hi
  obtain ⟨pre, post, hsplit⟩ := List.append_of_mem hgap
  have hstay : ∀ (ps : List Str) (s : St), ps.foldl (deleteStep (true || desc.isEmpty) rm) (.raised s) = .raised s := by
    intro ps s
    induction ps with
    | nil => rfl
    | cons p ps ih => exact ih
  have hmid : ∃ st', desc.foldl (deleteStep (true || desc.isEmpty) rm) (.ok st1) = .raised st' ∧ st'.table = st1.table ∧
      ∀ q, get? q st1.byPath = none → get? q st'.byPath = none := by
    obtain ⟨st', h1, h2, h3⟩ := deleteLoop_table (true || desc.isEmpty) rm pre st1
    conv => enter [1, st', 1, 1, 3]; rw [hsplit]
    rcases h1 with h1 | h1
    · have hn : get? (render (old ++ a)) st'.byPath = none := h3 _ (by
        rw [s4, if_neg]
        · exact get?_eq_none.2 hout
        · intro h
          have := render_inj (names_append.1 hab).1 ho h
          exact ha (by simpa using this))
      refine ⟨st', ?_, h2, h3⟩
      rw [List.foldl_append, h1, List.foldl_cons]
      have : deleteStep (true || desc.isEmpty) rm (.ok st') (render (old ++ a)) = .raised st' := by
        unfold deleteStep
        simp only [hn]
      rw [this, hstay]
    · exact ⟨st', by rw [List.foldl_append, h1, hstay], h2, h3⟩
  obtain ⟨st', h1, h2, h3⟩ := hmid
  have htab : (old, i) ∈ st'.table := by
    rw [h2, s5, K.table]
    exact .inr ⟨h0, ho, (K.inv _ _).1 hi⟩
  have hgone : get? (render old) st'.byPath = none := h3 _ (by rw [s4, if_pos rfl])
  refine ⟨st', ?_, hgone, htab, ?_⟩
  · unfold deleteNode
    simp only [hpath, if_true]
    rw [List.foldl_cons, s1, h1]
  · intro T
    rcases (T.table _ _).1 htab with ⟨h, h'⟩ | ⟨_, _, h⟩
    · rw [h] at ho
      exact (ho [] (by simp)).1 rfl
    · rw [← T.inv, hgone] at h
      exact nomatch h

/-- C55: a layer stays consistent over any history of edits which are in order. -/
theorem C55_history_partial (ops : List Op) (st : St) (K : LayerOk st) (A : AllAllowed ops st) :
    ∃ st', runOps ops st = .ok st' ∧ LayerOk st' := by
  induction ops generalizing st with
  | nil => exact ⟨st, rfl, K⟩
  | cons op ops ih =>
    obtain ⟨h1, h2⟩ := A
    have : ∃ st', runOp st op = .ok st' ∧ LayerOk st' := by
      cases op with
      | add i par x order =>
        obtain ⟨a, b, c⟩ := h1
        exact ⟨_, rfl, (addNode_spec K order a b c).1⟩
      | delete i wd rm fuel =>
        obtain ⟨old, a, b, c, d, e⟩ := h1
        obtain ⟨desc, he⟩ := Option.isSome_iff_exists.1 e
        have hrun : runOp st (.delete i wd rm fuel) = deleteNode desc wd rm st i := by
          simp only [runOp, (K.inv _ _).1 c, he]
        rw [hrun]
        cases wd with
        | true =>
          obtain ⟨st', x, y, -⟩ := C69_delete_subtree_partial st K i old rm fuel desc a b c he (d rfl)
          exact ⟨st', x, y⟩
        | false =>
          obtain ⟨st', x, y, -⟩ := C69_delete_one st K i desc rm _ c
          exact ⟨st', x, y⟩
      | parent nodes par =>
        by_cases hne : nodes = []
        · subst hne; exact ⟨st, by simp [runOp, parentNodes], K⟩
        · obtain ⟨st', a, b, -⟩ := C67_parent st K nodes par hne h1
          exact ⟨st', a, b⟩
      | rename i name =>
        obtain ⟨par, x, a, b, c, d⟩ := h1
        obtain ⟨st', e, f, -⟩ := C68_rename st K i par x name a b c d
        exact ⟨st', e, f⟩
    obtain ⟨st', a, b⟩ := this
    obtain ⟨st'', c, d⟩ := ih st' b (h2 st' a)
    exact ⟨st'', by unfold runOps; rw [a]; exact c, d⟩

/-- C55: the layer made from a file is consistent, with the nodes of the file. -/
theorem C55_construct (nodes : Dict Str (List Str)) (hok : Ok nodes) (hp : ∀ p ∈ keys nodes, ∃ ns, Names ns ∧ p = render ns) :
    LayerOk (construct nodes) ∧ ∀ p, p ∈ keys (construct nodes).byPath ↔ p ∈ keys nodes := by
  have hjoin : ∀ ns, Names ns → joinNodePath (parentPath (render ns)) (nodeName (render ns)) = render ns ∧
      Placed (render ns) ⟨nodeName (render ns), parentPath (render ns), []⟩ := by
    intro ns hns
    rcases eq_nil_or_snoc ns with rfl | ⟨m, x, rfl⟩
    · exact ⟨by decide +kernel, .inl (by decide +kernel)⟩
    · obtain ⟨a, b, c, d⟩ := C09_parent_name_join m x hns
      exact ⟨d, .inr ⟨m, x, hns, rfl, a, b⟩⟩
  have key : ∀ (l : Dict Str (List Str)) (st : St), Ok l → (∀ p ∈ keys l, ∃ ns, Names ns ∧ p = render ns) → Linked st →
      st.specs.Nodup → (∀ i, i ∈ st.specs ↔ i ∈ keys st.byNode) → (∀ i ∈ st.specs, i < st.specs.length) →
      (∀ p ∈ keys l, p ∉ keys st.byPath) →
      Linked (l.foldl constructStep st) ∧ (l.foldl constructStep st).specs.Nodup ∧
      (∀ i, i ∈ (l.foldl constructStep st).specs ↔ i ∈ keys (l.foldl constructStep st).byNode) ∧
      ∀ p, p ∈ keys (l.foldl constructStep st).byPath ↔ p ∈ keys st.byPath ∨ p ∈ keys l := by
    intro l
    induction l with
    | nil => intro st _ _ L h1 h2 _ _; exact ⟨L, h1, h2, by simp⟩
    | cons e l ih =>
      obtain ⟨p, o⟩ := e
      intro st hl hshape L h1 h2 h3 h4
      obtain ⟨hpl, hl'⟩ := List.nodup_cons.1 hl
      obtain ⟨ns, hns, rfl⟩ := hshape p (by simp)
      obtain ⟨hj, hplace⟩ := hjoin ns hns
      have hstep : constructStep st (render ns, o) = { st with
          obj := upd st.obj st.specs.length (fun _ => ⟨nodeName (render ns), parentPath (render ns), o⟩)
          specs := st.specs ++ [st.specs.length]
          byPath := Dict.set (render ns) st.specs.length st.byPath
          byNode := Dict.set st.specs.length (render ns) st.byNode } := by
        unfold constructStep
        simp only [hj]
      have hfresh : st.specs.length ∉ keys st.byNode := fun h => absurd (h3 _ ((h2 _).2 h)) (Nat.lt_irrefl _)
      have hfree := h4 (render ns) (by simp)
      have L1 := Linked.add L hfree hfresh (upd st.obj st.specs.length (fun _ => ⟨nodeName (render ns), parentPath (render ns), o⟩))
        (fun j hj => by rw [upd_ne hj]; exact ⟨rfl, rfl⟩) (by rw [upd_same]; exact placed_congr hplace rfl rfl)
      rw [List.foldl_cons, hstep]
      obtain ⟨a, b, c, d⟩ := ih { st with
          obj := upd st.obj st.specs.length (fun _ => ⟨nodeName (render ns), parentPath (render ns), o⟩)
          specs := st.specs ++ [st.specs.length]
          byPath := Dict.set (render ns) st.specs.length st.byPath
          byNode := Dict.set st.specs.length (render ns) st.byNode } hl' (fun p hp => hshape p (by simp [hp]))
        ⟨L1.okPath, L1.okNode, L1.inv, L1.placed⟩ (by
          show (st.specs ++ [st.specs.length]).Nodup
          rw [List.nodup_append]
          refine ⟨h1, by simp, ?_⟩
          intro x hx y hy he
          rw [List.mem_singleton] at hy
          subst hy; subst he
          exact absurd (h3 _ hx) (Nat.lt_irrefl _)) (by
          intro i
          show i ∈ st.specs ++ [st.specs.length] ↔ i ∈ keys (Dict.set st.specs.length (render ns) st.byNode)
          rw [List.mem_append, List.mem_singleton, mem_keys_set, h2, or_comm]) (by
          intro i hi
          have hi' : i ∈ st.specs ++ [st.specs.length] := hi
          show i < (st.specs ++ [st.specs.length]).length
          rw [List.length_append]
          rcases List.mem_append.1 hi' with h | h
          · have := h3 i h
            simp only [List.length_cons, List.length_nil]
            omega
          · rw [List.mem_singleton.1 h]; simp) (by
          intro q hq
          show q ∉ keys (Dict.set (render ns) st.specs.length st.byPath)
          rw [mem_keys_set]
          rintro (h | h)
          · exact hpl (by rw [← h]; exact hq)
          · exact h4 q (by simp [hq]) h)
      refine ⟨a, b, c, fun q => ?_⟩
      rw [d q]
      show q ∈ keys (Dict.set (render ns) st.specs.length st.byPath) ∨ _ ↔ _
      rw [mem_keys_set, keys_cons, List.mem_cons]
      constructor
      · rintro ((h | h) | h)
        · exact .inr (.inl h)
        · exact .inl h
        · exact .inr (.inr h)
      · rintro (h | h | h)
        · exact .inl (.inr h)
        · exact .inl (.inl h)
        · exact .inr h
  have L0 : Linked empty := ⟨List.nodup_nil, List.nodup_nil, (fun p i => ⟨(fun h => nomatch h), (fun h => nomatch h)⟩), (fun p i h => nomatch h)⟩
  obtain ⟨a, b, c, d⟩ := key nodes empty hok hp L0 List.nodup_nil (fun i => ⟨(fun h => nomatch h), (fun h => nomatch h)⟩)
    (fun i h => nomatch h) (fun p _ h => nomatch h)
  refine ⟨⟨tablesOk_refresh a, b, c⟩, fun p => ?_⟩
  refine (d p).trans ?_
  constructor
  · rintro (h | h)
    · exact nomatch h
    · exact h
  · exact .inr

/-- C67: the child orders: the parent node of the old path loses the name, the one of the new path gets it. -/
theorem C67_order (st : St) (K : LayerOk st) (i p : Nat) (op par : List Str) (n x : Str) (ho : Names (op ++ [n]))
    (h0 : op ≠ []) (hi : get? (render (op ++ [n])) st.byPath = some i) (hp : get? (render op) st.byPath = some p) :
    ∃ st', parentOne st i (render par) x = some st' ∧ ∀ j, (st'.obj j).order =
      if get? (render par) st.byPath = some j ∧ x ∉ (if j = p then (st.obj j).order.erase n else (st.obj j).order)
      then (if j = p then (st.obj j).order.erase n else (st.obj j).order) ++ [x]
      else (if j = p then (st.obj j).order.erase n else (st.obj j).order) := by
  have hib := (K.inv _ _).1 hi
  have hplace : (st.obj i).parent = render op ∧ (st.obj i).name = n := by
    rcases K.placed _ _ hi with ⟨h, -⟩ | ⟨ns, y, p1, p2, p3, p4⟩
    · have := (render_eq_world ho).1 h
      simp at this
    · have e := List.append_inj' (render_inj ho p1 p2) rfl
      obtain ⟨rfl, e2⟩ := e
      have : n = y := by simpa using e2
      subst this
      exact ⟨p3, p4⟩
  have hw : ¬ render op = WORLD := fun h => h0 ((render_eq_world (names_append.1 ho).1).1 h)
  have hun : unorder st i (render (op ++ [n])) = { st with obj := dropChild st.obj p n } := by
    unfold unorder
    rw [hplace.1, if_neg hw, hp, hplace.2]
  have hord : ∀ j, (dropChild st.obj p n j).order = if j = p then (st.obj j).order.erase n else (st.obj j).order := by
    intro j
    unfold dropChild
    by_cases hj : j = p
    · subst hj; rw [upd_same, if_pos rfl]
    · rw [upd_ne hj, if_neg hj]
  unfold parentOne
  rw [hib]
  simp only [hi, hun]
  refine ⟨_, rfl, fun j => ?_⟩
  simp only [foldl_moveStep_order]
  rw [upd_parent_order]
  cases hq : get? (render par) st.byPath with
  | none =>
    simp only [reduceCtorEq, false_and, if_false]
    rw [upd_name_order, hord]
  | some q =>
    simp only [Option.some.injEq]
    split
    · rename_i hx
      rw [upd_name_order, hord] at hx
      have hno : ¬ (q = j ∧ x ∉ (if j = p then (st.obj j).order.erase n else (st.obj j).order)) := by
        rintro ⟨rfl, h⟩
        exact h hx
      rw [upd_name_order, hord, if_neg hno]
    · rename_i hx
      rw [upd_name_order, hord] at hx
      by_cases hj : j = q
      · subst hj
        rw [if_pos ⟨rfl, hx⟩]
        simp only [upd_same]
        rw [upd_name_order, hord]
      · rw [if_neg (fun h => hj h.1.symm)]
        simp only [upd_ne hj]
        rw [upd_name_order, hord]

/-- C67: the name of a top node which is moved away stays in the child order of the world node. -/
theorem C67_world_order_violation (st : St) (K : LayerOk st) (i w : Nat) (par : List Str) (n x : Str) (hn : IsName n)
    (hi : get? (render [n]) st.byPath = some i) (hw : get? ['/'] st.byPath = some w) (hp : Names par) (hp0 : par ≠ [])
    (hmem : n ∈ (st.obj w).order) :
    ∃ st', parentOne st i (render par) x = some st' ∧ n ∈ (st'.obj w).order := by
  have hib := (K.inv _ _).1 hi
  have hns : Names [n] := by intro z hz; rw [List.mem_singleton.1 hz]; exact hn
  have hplace : (st.obj i).parent = WORLD := by
    rcases K.placed _ _ hi with ⟨h, -⟩ | ⟨ns, y, p1, p2, p3, p4⟩
    · have := (render_eq_world hns).1 h
      simp at this
    · have e : ([] : List Str) ++ [n] = ns ++ [y] := render_inj hns p1 p2
      have e := List.append_inj' e rfl
      rw [p3, ← e.1]
      rfl
  have hun : unorder st i (render [n]) = st := by
    unfold unorder
    rw [if_pos hplace]
  unfold parentOne
  rw [hib]
  simp only [hi, hun]
  refine ⟨_, rfl, ?_⟩
  simp only [foldl_moveStep_order]
  rw [upd_parent_order]
  cases hq : get? (render par) st.byPath with
  | none => simp only; rw [upd_name_order]; exact hmem
  | some q =>
    have hqw : w ≠ q := by
      rintro rfl
      have := Linked.inj K.toLinked hq hw
      exact hp0 ((render_eq_world hp).1 this)
    simp only
    split
    · rw [upd_name_order]; exact hmem
    · simp only [upd_ne hqw]
      rw [upd_name_order]; exact hmem

/-- A layer: `/a` with `/a/b` and `/a/b/c`, a node `/p`, and a node `/q/d/e` whose ancestors are missing. -/
def editSample : St := construct [("/a".toList, ["b".toList]), ("/a/b".toList, []), ("/a/b/c".toList, []),
  ("/p".toList, []), ("/q/d/e".toList, [])]

theorem editSample_ok : LayerOk editSample := by
  refine (C55_construct _ (by decide +kernel) ?_).1
  intro p hp
  simp only [keys, List.map_cons, List.map_nil, List.mem_cons, List.not_mem_nil, or_false] at hp
  rcases hp with rfl | rfl | rfl | rfl | rfl
  · exact ⟨["a".toList], by decide +kernel⟩
  · exact ⟨["a".toList, "b".toList], by decide +kernel⟩
  · exact ⟨["a".toList, "b".toList, "c".toList], by decide +kernel⟩
  · exact ⟨["p".toList], by decide +kernel⟩
  · exact ⟨["q".toList, "d".toList, "e".toList], by decide +kernel⟩

/-- A path is free when it is no key and no key is below. -/
theorem unused_of {st : St} {ns : List Str} (h0 : ns ≠ []) (h : ∀ k ∈ keys st.byPath, ¬ slashed ns <+: k) : Unused st ns := by
  intro r hr
  apply h _ hr
  rw [render_ne_nil (by simp [h0]), slashed_append]
  exact List.prefix_append _ _

-- moving `/a/b` below `/p` under a new name meets the hypotheses
example : ∃ st', parentNodes editSample [(1, "b1".toList)] "/p".toList = .ok st' ∧ LayerOk st' ∧
    Moved ["a".toList, "b".toList] ["p".toList, "b1".toList] editSample st' :=
  C67_parent_one editSample editSample_ok 1 ["a".toList, "b".toList] ["p".toList] "b1".toList (by decide +kernel)
    (by decide +kernel) (by decide +kernel) (by decide +kernel)
    (unused_of (by decide) (by decide +kernel)) (by decide)

-- what it does
example : (match parentNodes editSample [(1, "b1".toList)] "/p".toList with
    | .ok st => (keys st.byPath, st.table.length, (st.obj 0).order, (st.obj 3).order, (st.obj 2).parent)
    | .raised _ => ([], 0, [], [], [])) =
  (["/a".toList, "/p".toList, "/q/d/e".toList, "/p/b1".toList, "/p/b1/c".toList], 5, [], ["b1".toList], "/p/b1".toList) := by
  decide +kernel

-- renaming `/a` to `/z`
example : ∃ st', setNodeName editSample 0 "z".toList = .ok st' ∧ LayerOk st' ∧
    Moved (([] : List Str) ++ ["a".toList]) (([] : List Str) ++ ["z".toList]) editSample st' := by
  refine C68_rename_subtree_partial editSample editSample_ok 0 [] "a".toList "z".toList (by decide +kernel)
    (by decide +kernel) (by decide +kernel) (unused_of (by decide) (by decide +kernel)) ?_
  intro a b hab hk
  have hall : ∀ k ∈ keys editSample.byPath, ∀ c d, Names (["a".toList] ++ c ++ d) → k = render (["a".toList] ++ c ++ d) →
      c = [] ∨ c = ["b".toList] ∨ c = ["b".toList, "c".toList] := by
    intro k hk' c d hn he
    have hks : k = render ["a".toList] ∨ k = render ["a".toList, "b".toList] ∨ k = render ["a".toList, "b".toList, "c".toList] ∨
        k = render ["p".toList] ∨ k = render ["q".toList, "d".toList, "e".toList] := by
      clear he
      revert k
      decide +kernel
    have hinj : ∀ ns, Names ns → k = render ns → ["a".toList] ++ c ++ d = ns := fun ns h1 h2 =>
      render_inj hn h1 (he.symm.trans h2)
    rcases hks with h | h | h | h | h
    · have := hinj _ (by decide +kernel) h
      simp at this
      exact .inl this.1
    · have := hinj _ (by decide +kernel) h
      cases c with
      | nil => exact .inl rfl
      | cons c1 c2 => simp at this; rw [this.1, this.2.1]; exact .inr (.inl rfl)
    · have := hinj _ (by decide +kernel) h
      cases c with
      | nil => exact .inl rfl
      | cons c1 c2 =>
        cases c2 with
        | nil => simp at this; rw [this.1]; exact .inr (.inl rfl)
        | cons c2 c3 => simp at this; rw [this.1, this.2.1, this.2.2.1]; exact .inr (.inr rfl)
    · have := hinj _ (by decide +kernel) h
      simp at this
    · have := hinj _ (by decide +kernel) h
      simp at this
  rcases hall _ hk a b hab rfl with rfl | rfl | rfl <;> decide +kernel

/-- C67: moving below a missing node can overwrite: `/a` goes below `/q` as `d`, where `/q/d/e` exists
already; its child `/a/e` takes the place of that node, which stays in the other table and in the list
of nodes. -/
theorem C67_orphan_violation :
    let st := construct [("/a".toList, []), ("/a/e".toList, []), ("/q/d/e".toList, [])]
    ∃ st', parentNodes st [(0, "d".toList)] "/q".toList = .ok st' ∧ get? "/q/d".toList st.byPath = none ∧
      st'.byPath = [("/q/d/e".toList, 1), ("/q/d".toList, 0)] ∧
      get? 2 st'.byNode = some "/q/d/e".toList ∧ 2 ∈ st'.specs := by
  refine ⟨_, rfl, ?_, ?_, ?_, ?_⟩ <;> decide +kernel

/-- C67: the collapse data of the nodes below a moved node stay at the old paths. -/
theorem C67_collapse_violation :
    let st := { construct [("/a".toList, []), ("/a/b".toList, []), ("/a/b/c".toList, []), ("/p".toList, [])] with
      collapse := [("/a".toList, 1), ("/a/b".toList, 1)] }
    ∃ st', parentNodes st [(0, "a".toList)] "/p".toList = .ok st' ∧ get? 1 st'.byNode = some "/p/a/b".toList ∧
      st'.collapse = [("/a/b".toList, 1), ("/p/a".toList, 1)] := by
  refine ⟨_, rfl, ?_, ?_⟩ <;> decide +kernel

/-- C69: a layer meeting the hypotheses of the violation: `/a` and `/a/b/c` without `/a/b`. -/
example : ∃ st', deleteNode ["/a/b".toList, "/a/b/c".toList] true true (construct [("/a".toList, []), ("/a/b/c".toList, [])]) 0 =
    .raised st' ∧ keys st'.byPath = ["/a/b/c".toList] ∧ st'.table.length = 2 := by
  refine ⟨_, rfl, ?_, ?_⟩ <;> decide +kernel

example : Tree.descendants (tree (construct [("/a".toList, []), ("/a/b/c".toList, [])]))
    (Tree.scan (fun a b => a == b) (tree (construct [("/a".toList, []), ("/a/b/c".toList, [])]))) true 5 "/a".toList =
    some ["/a/b".toList, "/a/b/c".toList] := by decide +kernel

-- a composite layer: a node is added below `/a` and taken away again
example : (match runComp [.add "/a/n".toList 7 true, .remove "/a/b/c".toList 2 true true]
      { editSample with obj := upd editSample.obj 7 (fun _ => ⟨"n".toList, "/a".toList, []⟩) } with
    | some st => (keys st.byPath, st.table.length, (st.obj 0).order)
    | none => ([], 0, [])) =
  (["/a".toList, "/a/b".toList, "/p".toList, "/q/d/e".toList, "/a/n".toList], 5, ["b".toList, "n".toList]) := by decide +kernel

/-- C55: a history which is in order: add, move, rename, delete. -/
example : (match runOps [.add 9 ["p".toList] "n".toList [], .parent [(9, "m".toList)] ["a".toList], .rename 9 "k".toList,
      .delete 0 true true 9] editSample with
    | .ok st => (keys st.byPath, st.specs, st.table.length)
    | .raised _ => ([], [], 0)) = (["/p".toList, "/q/d/e".toList], [3, 4], 2) := by decide +kernel

end Nxt.Props
