import Verif.Props.Edit
import Verif.Props.Lists
/-!
# Property theorems about the child orders after edits of a layer (C55, C67, C68, C69)
-/
namespace Nxt.Props
open Dict Edit Spec Path

/-- C67: a moved node whose parent is no node: of all child orders, only the one of the nearest ancestor
which is a node loses an entry, the name on the way down to the moved node. -/
theorem C67_order_orphan (st : St) (K : LayerOk st) (i a : Nat) (anc rest par : List Str) (m n x : Str)
    (h : Names (anc ++ m :: rest ++ [n])) (h0 : anc ≠ []) (hi : get? (render (anc ++ m :: rest ++ [n])) st.byPath = some i)
    (ha : get? (render anc) st.byPath = some a)
    (hgap : ∀ b c, m :: rest = b ++ c → b ≠ [] → render (anc ++ b) ∉ keys st.byPath) :
    ∃ st', parentOne st i (render par) x = some st' ∧ ∀ j, (st'.obj j).order =
      if get? (render par) st.byPath = some j ∧ x ∉ (if j = a then (st.obj j).order.erase m else (st.obj j).order)
      then (if j = a then (st.obj j).order.erase m else (st.obj j).order) ++ [x]
      else (if j = a then (st.obj j).order.erase m else (st.obj j).order) := by
  have hib := (K.inv _ _).1 hi
  have hpl : (st.obj i).parent = render (anc ++ m :: rest) := by
    rcases K.placed _ _ hi with ⟨h', -⟩ | ⟨ns, y, p1, p2, p3, p4⟩
    · have := (render_eq_world h).1 h'
      simp at this
    · rw [p3, (List.append_inj' (render_inj h p1 p2) rfl).1]
  have hw : render (anc ++ m :: rest) ≠ WORLD := fun hw => by
    have := (render_eq_world (names_append.1 h).1).1 hw
    simp at this
  have hun : unorder st i (render (anc ++ m :: rest ++ [n])) = { st with obj := dropChild st.obj a m } := by
    unfold unorder
    rw [hpl, if_neg hw, get?_eq_none.2 (hgap (m :: rest) [] (by simp) (by simp)),
      orphanEntry_spec K.toLinked h h0 hpl ha hgap]
  obtain ⟨st', h1, h2⟩ := parentOne_order (render par) x hib hi
  refine ⟨st', h1, fun j => ?_⟩
  rw [h2 j, hun]
  simp only [dropChild_order]

/-- C67: so the entry of a missing node goes although other nodes below it stay: `k` is left below
`anc/m`, which is no longer in the child order of `anc`. -/
theorem C67_order_orphan_violation (st : St) (K : LayerOk st) (i a k : Nat) (anc rest par r : List Str) (m n x : Str)
    (h : Names (anc ++ m :: rest ++ [n])) (h0 : anc ≠ []) (hi : get? (render (anc ++ m :: rest ++ [n])) st.byPath = some i)
    (ha : get? (render anc) st.byPath = some a)
    (hgap : ∀ b c, m :: rest = b ++ c → b ≠ [] → render (anc ++ b) ∉ keys st.byPath)
    (hn : Names (par ++ [x])) (hu : Unused st (par ++ [x])) (hpa : par ≠ anc) (hp : Names par)
    (hr : Names (anc ++ m :: r)) (hk : get? (render (anc ++ m :: r)) st.byPath = some k)
    (hkn : ¬ anc ++ m :: rest ++ [n] <+: anc ++ m :: r) (hone : (st.obj a).order.Nodup) :
    ∃ st', parentOne st i (render par) x = some st' ∧ get? (render (anc ++ m :: r)) st'.byPath = some k ∧
      m ∉ (st'.obj a).order := by
  obtain ⟨st', h1, h2⟩ := C67_order_orphan st K i a anc rest par m n x h h0 hi ha hgap
  obtain ⟨st1, g1, -, g2, -⟩ := parentOne_spec K.toLinked h (by simp) ((K.inv _ _).1 hi) hn hu
  rw [h1] at g1
  obtain rfl := Option.some.inj g1
  refine ⟨st', h1, (g2 _ _ hr).2 ⟨_, hr, hk, (relocate_of_not hkn).symm⟩, ?_⟩
  have hne : get? (render par) st.byPath ≠ some a := by
    intro h3
    have hanc : Names anc := (names_append.1 (names_append.1 h).1).1
    exact hpa (render_inj hp hanc (Linked.inj K.toLinked h3 ha))
  rw [h2 a, if_neg (fun h => hne h.1), if_pos rfl]
  intro hm
  exact (hone.mem_erase_iff.1 hm).1 rfl

/-- C68: the child orders after a change of name: the parent node has the new name in the place of the old
one, the renamed node gets the names of those children which were missing in its child order, and no
other child order changes. -/
theorem C68_order (st : St) (K : LayerOk st) (i p : Nat) (par : List Str) (x name : Str) (hx : Names (par ++ [x]))
    (hi : get? (render (par ++ [x])) st.byPath = some i) (hn : IsName name) (hu : Unused st (par ++ [name]))
    (hp : get? (render par) st.byPath = some p) :
    ∃ st' added, setNodeName st i name = .ok st' ∧
      (st'.obj p).order = (st.obj p).order.map (fun z => if z = x then name else z) ∧
      (st'.obj i).order = (st.obj i).order ++ added ∧ added.Nodup ∧
      (∀ y, y ∈ added ↔ IsName y ∧ y ∉ (st.obj i).order ∧ render (par ++ [x] ++ [y]) ∈ keys st.byPath) ∧
      ∀ j, j ≠ i → j ≠ p → (st'.obj j).order = (st.obj j).order := by
  have L := K.toLinked
  have hnew : Names (par ++ [name]) := names_append.2 ⟨(names_append.1 hx).1, by
    intro z hz; rw [List.mem_singleton.1 hz]; exact hn⟩
  have hnx : name ≠ x := by
    rintro rfl
    exact hu [] (by rw [List.append_nil]; exact get?_isSome.1 (by rw [hi]; rfl))
  have hpi : p ≠ i := by
    rintro rfl
    have := congrArg List.length (render_inj (names_append.1 hx).1 hx (Linked.inj L hp hi))
    simp at this
  obtain ⟨st2, hset, L2, hget2, hkn2, hspec2, hpos2, hchild, C2, hord⟩ := setNodeName_start K hx hi hn hu
  have hord := hord p hp
  obtain ⟨cn, cm⟩ := realChildren_spec L hx (by simp)
  have hcs : ∀ e ∈ (realChildren st (render (par ++ [x]))).map (fun c => (c, (st2.obj c).name)),
      IsName e.2 ∧ get? (render (par ++ [x] ++ [e.2])) st2.byPath = some e.1 := by
    intro e he
    obtain ⟨c, hc, rfl⟩ := List.mem_map.1 he
    obtain ⟨y, h1, h2, -, h4⟩ := hchild c hc
    simp only [h2]
    exact ⟨h1, h4⟩
  have hpar2 : get? (render par) st2.byPath = some p := by
    refine (hget2 _ _).2 (.inr ⟨fun h => ?_, hp⟩)
    have := congrArg List.length (render_inj (names_append.1 hx).1 hx h)
    simp at this
  have hx2 : render (par ++ [x]) ∉ keys st2.byPath := by
    intro h
    obtain ⟨j, hj⟩ := Option.isSome_iff_exists.1 (get?_isSome.2 h)
    rcases (hget2 _ _).1 hj with ⟨h1, -⟩ | ⟨h1, -⟩
    · have := List.append_cancel_left (render_inj hx hnew h1)
      exact hnx (by simpa using this.symm)
    · exact h1 rfl
  have hxo : x ∉ (st2.obj p).order := by
    rw [hord p, if_pos rfl, List.mem_map]
    rintro ⟨z, -, hz⟩
    split at hz
    · exact hnx hz
    · rename_i h; exact h hz
  obtain ⟨st3, olds, hloop, hfin⟩ := parentLoop_order hx hnew _ st2 [] L2 C2 hcs hx2 hpar2
    ((hget2 _ _).2 (.inl ⟨rfl, rfl⟩)) hxo
  have hpn : ∃ s, parentNodes st2 ((realChildren st (render (par ++ [x]))).map (fun c => (c, (st2.obj c).name)))
      (render (par ++ [name])) = .ok s ∧ s.obj = st3.obj := by
    by_cases h0 : (realChildren st (render (par ++ [x]))).map (fun c => (c, (st2.obj c).name)) = []
    · rw [h0] at hloop ⊢
      refine ⟨st2, rfl, ?_⟩
      have := Option.some.inj hloop
      rw [(Prod.mk.inj this).1]
    · obtain ⟨s, hs, -⟩ := parentNodes_spec L2 ⟨by rw [hspec2]; exact K.specsNodup, fun j => by rw [hspec2, hkn2, K.specs]⟩ h0 C2
      refine ⟨s, hs, ?_⟩
      unfold parentNodes at hs
      rw [if_neg h0, hloop] at hs
      simp only at hs
      split at hs
      · rw [← (Res.ok.inj hs)]; rfl
      · exact nomatch hs
  obtain ⟨s, hs, hsobj⟩ := hpn
  have hnames := C2.namesNodup
  refine ⟨refresh s, (((realChildren st (render (par ++ [x]))).map (fun c => (c, (st2.obj c).name))).map Prod.snd).filter
    (fun y => decide (y ∉ (st.obj i).order)), by rw [hset, hs], ?_, ?_, hnames.filter _, ?_, ?_⟩
  · show (s.obj p).order = _
    rw [hsobj, hfin p, if_neg hpi, hord p, if_pos rfl]
  · show (s.obj i).order = _
    rw [hsobj, hfin i, if_pos rfl, hord i, if_neg (Ne.symm hpi), addMissing_eq _ _ hnames]
  · intro y
    rw [List.mem_filter, decide_eq_true_eq, List.map_map, List.mem_map]
    constructor
    · rintro ⟨⟨c, hc, rfl⟩, h2⟩
      obtain ⟨y, h3, h4, h5, -⟩ := hchild c hc
      simp only [Function.comp] at h2 ⊢
      rw [h4] at h2 ⊢
      exact ⟨h3, h2, get?_isSome.1 (by rw [h5]; rfl)⟩
    · rintro ⟨h1, h2, h3⟩
      refine ⟨?_, h2⟩
      obtain ⟨c, hc⟩ := Option.isSome_iff_exists.1 (get?_isSome.2 h3)
      have hin := (cm c).2 ⟨y, h1, hc⟩
      obtain ⟨y', h4, h5, h6, -⟩ := hchild c hin
      refine ⟨c, hin, ?_⟩
      have hsg : ∀ {w : Str}, IsName w → Names (par ++ [x] ++ [w]) := fun hw =>
        names_append.2 ⟨hx, by intro z hz; rw [List.mem_singleton.1 hz]; exact hw⟩
      have := List.append_cancel_left (render_inj (hsg h4) (hsg h1) (Linked.inj L h6 hc))
      simp only [Function.comp, h5]
      simpa using this
  · intro j h1 h2
    show (s.obj j).order = _
    rw [hsobj, hfin j, if_neg h1, hord j, if_neg h2]

/-- The child orders after one step of `delete_node`. -/
theorem deleteStep_order {st : St} (L : Linked st) (hs : st.specs.Nodup ∧ ∀ i, i ∈ st.specs ↔ i ∈ keys st.byNode)
    (pop rm : Bool) {ns : List Str} {n : Str} {i : Nat} (hn : Names (ns ++ [n]))
    (h : get? (render (ns ++ [n])) st.byPath = some i) :
    ∃ st', deleteStep pop rm (.ok st) (render (ns ++ [n])) = .ok st' ∧ ∀ j, (st'.obj j).order =
      if pop ∧ get? (render ns) st.byPath = some j then (st.obj j).order.erase n else (st.obj j).order := by
  have hi := (L.inv _ _).1 h
  have hin : i ∈ st.specs := (hs.2 i).2 (get?_isSome.1 (by rw [hi]; rfl))
  have hpl : (st.obj i).parent = render ns ∧ (st.obj i).name = n := by
    rcases L.placed _ _ h with ⟨h', -⟩ | ⟨ms, y, p1, p2, p3, p4⟩
    · have := (render_eq_world hn).1 h'
      simp at this
    · obtain ⟨e1, e2⟩ := List.append_inj' (render_inj hn p1 p2) rfl
      rw [p3, p4, e1]
      exact ⟨rfl, by simpa using e2.symm⟩
  have hne : render ns ≠ render (ns ++ [n]) := fun h => by
    have := congrArg List.length (render_inj (names_append.1 hn).1 hn h)
    simp at this
  have hget : get? (render ns) (Dict.erase (render (ns ++ [n])) st.byPath) = get? (render ns) st.byPath := by
    rw [get?_erase L.okPath, if_neg hne]
  unfold deleteStep
  simp only [h, hin, not_true, if_false, hi, Option.isNone_some, Bool.false_eq_true, hpl.1, hpl.2, hget]
  refine ⟨_, rfl, fun j => ?_⟩
  cases hq : get? (render ns) st.byPath with
  | none =>
    simp only [reduceCtorEq, and_false, if_false]
    cases rm <;> rfl
  | some p =>
    cases pop with
    | false =>
      simp only [Bool.false_eq_true, false_and, if_false]
      cases rm <;> rfl
    | true =>
      have : ∀ j, (dropChild st.obj p n j).order = if p = j then (st.obj j).order.erase n else (st.obj j).order := by
        intro j
        rw [dropChild_order]
        by_cases hj : j = p
        · subst hj; simp
        · rw [if_neg hj, if_neg (Ne.symm hj)]
      simp only [true_and, if_true, Option.some.injEq]
      cases rm <;> exact this j

/-- The child orders of the nodes which are left by `delete_node`. -/
theorem deleteLoop_order (pop rm : Bool) : ∀ (ps : List (List Str)) (st : St), Linked st →
    (st.specs.Nodup ∧ ∀ i, i ∈ st.specs ↔ i ∈ keys st.byNode) → ps.Nodup →
    (∀ p ∈ ps, p ≠ [] ∧ Names p ∧ render p ∈ keys st.byPath) →
    ∃ st', (ps.map render).foldl (deleteStep pop rm) (.ok st) = .ok st' ∧
      ∀ j q, Names q → q ∉ ps → get? j st.byNode = some (render q) → (st'.obj j).order =
        ps.foldl (fun o p => if pop ∧ p.dropLast = q then o.erase (p.getLast?.getD []) else o) (st.obj j).order := by
  intro ps
  induction ps with
  | nil => intro st L hs _ _; exact ⟨st, rfl, fun _ _ _ _ _ => rfl⟩
  | cons p ps ih =>
    intro st L hs hn hk
    rw [List.nodup_cons] at hn
    obtain ⟨h0, hp, hin⟩ := hk p (List.mem_cons_self ..)
    obtain ⟨i, hi⟩ := Option.isSome_iff_exists.1 (get?_isSome.2 hin)
    rcases eq_nil_or_snoc p with rfl | ⟨ns, n, rfl⟩
    · exact absurd rfl h0
    obtain ⟨st1, a, b, c, d, -⟩ := deleteStep_spec L hs pop rm hi
    obtain ⟨st1', a', ho⟩ := deleteStep_order L hs pop rm hp hi
    rw [a] at a'
    obtain rfl := Res.ok.inj a'
    obtain ⟨st', e1, e2⟩ := ih st1 b c hn.2 (by
      intro q hq
      obtain ⟨g0, g1, g2⟩ := hk q (List.mem_cons_of_mem _ hq)
      refine ⟨g0, g1, ?_⟩
      rw [← get?_isSome, d, if_neg]
      · exact get?_isSome.2 g2
      · intro h
        exact hn.1 (render_inj g1 hp h ▸ hq))
    refine ⟨st', by rw [List.map_cons, List.foldl_cons, a]; exact e1, fun j q hq hqn hj => ?_⟩
    rw [List.mem_cons, not_or] at hqn
    have hjp := (L.inv _ _).2 hj
    rw [e2 j q hq hqn.2 ((b.inv _ _).1 (by rw [d, if_neg (fun h => hqn.1 (render_inj hq hp h))]; exact hjp)), List.foldl_cons, ho j]
    congr 1
    simp only [List.dropLast_concat, List.getLast?_concat, Option.getD_some]
    have : get? (render ns) st.byPath = some j ↔ ns = q := by
      constructor
      · intro h
        exact render_inj (names_append.1 hp).1 hq (Linked.inj L h hjp)
      · rintro rfl; exact hjp
    simp only [this]

/-- C69: deleting a node with all below it takes its name out of the child order of its parent node and
changes no other child order of the nodes which stay. -/
theorem C69_order_subtree (st : St) (K : LayerOk st) (i : Nat) (par : List Str) (n : Str) (rm : Bool) (fuel : Nat)
    (desc : List Str) (ho : Names (par ++ [n])) (hi : get? (render (par ++ [n])) st.byPath = some i)
    (hd : Tree.descendants (tree st) (Tree.scan (fun a b => a == b) (tree st)) true fuel (render (par ++ [n])) = some desc)
    (hg : NoGaps st (par ++ [n])) :
    ∃ st', deleteNode desc true rm st i = .ok st' ∧ ∀ j q, get? j st'.byNode = some (render q) → Names q →
      (st'.obj j).order = if q = par then (st.obj j).order.erase n else (st.obj j).order := by
  obtain ⟨dn, dm⟩ := descendants_paths st K _ ho (by simp) fuel desc hd
  obtain ⟨st', r1, r2, r3⟩ := C69_delete_subtree_partial st K i _ rm fuel desc ho (by simp) hi hd hg
  have hpath : joinNodePath (st.obj i).parent (st.obj i).name = render (par ++ [n]) := by
    rcases K.placed _ _ hi with ⟨h, h1, h2⟩ | ⟨ns, x, p1, p2, p3, p4⟩
    · rw [h1, h2, h]; decide +kernel
    · rw [p3, p4, p2, (C09_parent_name_join ns x p1).2.2.1]
  -- the descendants as lists of names
  have hshape : ∃ ds : List (List Str), desc = ds.map render ∧ ∀ d ∈ ds, Names d ∧ ∃ rest, rest ≠ [] ∧ d = par ++ [n] ++ rest := by
    have : ∀ l : List Str, (∀ q ∈ l, q ∈ desc) → ∃ ds : List (List Str), l = ds.map render ∧
        ∀ d ∈ ds, Names d ∧ ∃ rest, rest ≠ [] ∧ d = par ++ [n] ++ rest := by
      intro l
      induction l with
      | nil => intro _; exact ⟨[], rfl, by simp⟩
      | cons q l ih =>
        intro h
        obtain ⟨ds, e1, e2⟩ := ih (fun z hz => h z (List.mem_cons_of_mem _ hz))
        obtain ⟨ns, rest, more, a1, a2, a3, a4, a5⟩ := (dm q).1 (h q (List.mem_cons_self ..))
        have e := render_inj ho (names_append.1 (names_append.1 a1).1).1 a3
        subst e
        refine ⟨(par ++ [n] ++ rest) :: ds, by rw [List.map_cons, ← e1, a4], ?_⟩
        intro d hd
        rcases List.mem_cons.1 hd with rfl | hd
        · exact ⟨(names_append.1 a1).1, rest, a2, rfl⟩
        · exact e2 d hd
    exact this desc (fun _ h => h)
  obtain ⟨ds, hds, hsh⟩ := hshape
  have hmemd : ∀ d ∈ ds, render d ∈ keys st.byPath := by
    intro d hd'
    have hin : render d ∈ desc := by rw [hds]; exact List.mem_map.2 ⟨d, hd', rfl⟩
    obtain ⟨ns, rest, more, a1, a2, a3, a4, a5⟩ := (dm _).1 hin
    have e := render_inj ho (names_append.1 (names_append.1 a1).1).1 a3
    subst e
    rw [a4]
    rw [tree_keys] at a5
    exact hg rest more a1 a5
  have hnd : ((par ++ [n]) :: ds).Nodup := by
    refine List.nodup_cons.2 ⟨?_, ?_⟩
    · intro h
      obtain ⟨-, rest, h1, h2⟩ := hsh _ h
      exact h1 (by simpa using h2)
    · rw [hds] at dn
      exact (List.pairwise_map.1 dn).imp (fun h e => h (by rw [e]))
  obtain ⟨st2, e1, e2⟩ := deleteLoop_order (true || desc.isEmpty) rm ((par ++ [n]) :: ds) st K.toLinked
    ⟨K.specsNodup, K.specs⟩ hnd (by
      intro p hp
      rcases List.mem_cons.1 hp with rfl | hp
      · exact ⟨by simp, ho, get?_isSome.1 (by rw [hi]; rfl)⟩
      · obtain ⟨a, rest, b, c⟩ := hsh p hp
        exact ⟨by rw [c]; simp, a, hmemd p hp⟩)
  have hst' : st' = refresh st2 := by
    unfold deleteNode at r1
    rw [hpath] at r1
    simp only [if_true] at r1
    rw [List.map_cons, ← hds] at e1
    rw [e1] at r1
    exact (Res.ok.inj r1).symm
  refine ⟨st', r1, fun j q hj hq => ?_⟩
  have hjp := (r2.inv _ _).2 hj
  rw [r3 q hq] at hjp
  by_cases hpre : par ++ [n] <+: q
  · rw [if_pos hpre] at hjp; exact nomatch hjp
  rw [if_neg hpre] at hjp
  have hnot : q ∉ (par ++ [n]) :: ds := by
    intro h
    rcases List.mem_cons.1 h with rfl | h
    · exact hpre (List.prefix_refl _)
    · obtain ⟨-, rest, -, h2⟩ := hsh q h
      exact hpre ⟨rest, h2.symm⟩
  rw [hst']
  show (st2.obj j).order = _
  rw [e2 j q hq hnot ((K.inv _ _).1 hjp), List.foldl_cons]
  simp only [Bool.true_or, true_and, List.dropLast_concat, List.getLast?_concat, Option.getD_some]
  have hrest : ∀ (l : List (List Str)) (o : List Str), (∀ d ∈ l, d ∈ ds) →
      l.foldl (fun o p => if p.dropLast = q then o.erase (p.getLast?.getD []) else o) o = o := by
    intro l
    induction l with
    | nil => intro o _; rfl
    | cons d l ih =>
      intro o hl
      obtain ⟨-, rest, h1, h2⟩ := hsh d (hl d (List.mem_cons_self ..))
      rw [List.foldl_cons, if_neg, ih _ (fun z hz => hl z (List.mem_cons_of_mem _ hz))]
      intro h3
      apply hpre
      rw [← h3, h2]
      rcases eq_nil_or_snoc rest with rfl | ⟨r, y, rfl⟩
      · exact absurd rfl h1
      · rw [← List.append_assoc, List.dropLast_concat]
        exact ⟨r, rfl⟩
  rw [hrest _ _ (fun _ h => h)]
  by_cases h : q = par
  · rw [if_pos h, if_pos h.symm]
  · rw [if_neg h, if_neg (Ne.symm h)]

/-- C69: a node deleted alone goes from the child order of its parent node just when nothing is below it. -/
theorem C69_order_one (st : St) (K : LayerOk st) (i : Nat) (par : List Str) (n : Str) (desc : List Str) (rm : Bool)
    (ho : Names (par ++ [n])) (hi : get? (render (par ++ [n])) st.byPath = some i) :
    ∃ st', deleteNode desc false rm st i = .ok st' ∧ ∀ j, (st'.obj j).order =
      if desc = [] ∧ get? (render par) st.byPath = some j then (st.obj j).order.erase n else (st.obj j).order := by
  have hpath : joinNodePath (st.obj i).parent (st.obj i).name = render (par ++ [n]) := by
    rcases K.placed _ _ hi with ⟨h, h1, h2⟩ | ⟨ns, x, p1, p2, p3, p4⟩
    · rw [h1, h2, h]; decide +kernel
    · rw [p3, p4, p2, (C09_parent_name_join ns x p1).2.2.1]
  obtain ⟨st', h1, h2⟩ := deleteStep_order K.toLinked ⟨K.specsNodup, K.specs⟩ (false || desc.isEmpty) rm ho hi
  refine ⟨refresh st', ?_, fun j => ?_⟩
  · unfold deleteNode
    rw [hpath]
    simp only [Bool.false_eq_true, if_false, List.foldl_cons, List.foldl_nil]
    rw [h1]
  · show (st'.obj j).order = _
    rw [h2 j]
    simp only [Bool.false_or, List.isEmpty_iff]

/-- C55: a node added to a composite layer is last in the child order of its parent node, unless it was
in it already; no other child order changes. -/
theorem C55_comp_add_order (st : St) (K : TablesOk st) (i : Nat) (par : List Str) (n : Str) (ho : Names (par ++ [n]))
    (hpl : Placed (render (par ++ [n])) (st.obj i)) (hord : ∀ j, (st.obj j).order.Nodup) (j : Nat) :
    ((addComp st (render (par ++ [n])) i true).obj j).order =
      (if get? (render par) st.byPath = some j ∧ n ∉ (st.obj j).order then (st.obj j).order ++ [n] else (st.obj j).order) ∧
    ((addComp st (render (par ++ [n])) i false).obj j).order = (st.obj j).order := by
  have hp : (st.obj i).parent = render par ∧ (st.obj i).name = n := by
    rcases hpl with ⟨h', -⟩ | ⟨ms, y, p1, p2, p3, p4⟩
    · have := (render_eq_world ho).1 h'
      simp at this
    · obtain ⟨e1, e2⟩ := List.append_inj' (render_inj ho p1 p2) rfl
      rw [p3, p4, e1]
      exact ⟨rfl, by simpa using e2.symm⟩
  have hne : render par ≠ render (par ++ [n]) := fun h => by
    have := congrArg List.length (render_inj (names_append.1 ho).1 ho h)
    simp at this
  refine ⟨?_, rfl⟩
  unfold addComp
  simp only [if_true, hp.1, hp.2, get?_set, if_neg hne]
  cases get? (render par) st.byPath with
  | none => simp
  | some p =>
    simp only [Option.some.injEq]
    by_cases hj : j = p
    · subst hj
      by_cases hn : n ∈ (st.obj j).order
      · simp [hn]
      · rw [if_neg hn, if_pos ⟨rfl, hn⟩]
        simp only [upd_same]
        exact C15_disjoint _ _ (hord j) (by simpa using hn)
    · have hno : ¬ (p = j ∧ n ∉ (st.obj j).order) := fun h => hj h.1.symm
      rw [if_neg hno]
      split
      · rfl
      · simp only [upd_ne hj]

/-- C55: a node removed from a composite layer goes from the child order of its parent node. -/
theorem C55_comp_remove_order (st : St) (K : TablesOk st) (i : Nat) (par : List Str) (n : Str) (rmData : Bool)
    (ho : Names (par ++ [n])) (h : get? (render (par ++ [n])) st.byPath = some i) :
    ∃ st', removeComp st (render (par ++ [n])) i true rmData = some st' ∧ ∀ j, (st'.obj j).order =
      if get? (render par) st.byPath = some j then (st.obj j).order.erase n else (st.obj j).order := by
  have hi := (K.inv _ _).1 h
  have hin : (toNamespace (render (par ++ [n])), i) ∈ st.table :=
    (K.table _ _).2 ((tableEntry_unique K.toLinked hi _).2 rfl)
  have hp : (st.obj i).parent = render par ∧ (st.obj i).name = n := by
    rcases K.placed _ _ h with ⟨h', -⟩ | ⟨ms, y, p1, p2, p3, p4⟩
    · have := (render_eq_world ho).1 h'
      simp at this
    · obtain ⟨e1, e2⟩ := List.append_inj' (render_inj ho p1 p2) rfl
      rw [p3, p4, e1]
      exact ⟨rfl, by simpa using e2.symm⟩
  have hne : render par ≠ render (par ++ [n]) := fun h => by
    have := congrArg List.length (render_inj (names_append.1 ho).1 ho h)
    simp at this
  unfold removeComp
  rw [if_pos ⟨hin, by rw [h]; rfl, by rw [hi]; rfl⟩]
  simp only [if_true, hp.1, hp.2, get?_erase K.okPath, if_neg hne]
  refine ⟨_, rfl, fun j => ?_⟩
  cases get? (render par) st.byPath with
  | none => cases rmData <;> simp
  | some p =>
    have : (dropChild st.obj p n j).order = if p = j then (st.obj j).order.erase n else (st.obj j).order := by
      rw [dropChild_order]
      by_cases hj : j = p
      · subst hj; simp
      · rw [if_neg hj, if_neg (Ne.symm hj)]
    simp only [Option.some.injEq]
    cases rmData <;> exact this

theorem foldl_moveStep_obj (old new : Str) (L : Dict Str Nat) (st : St) (i : Nat) (h : ∀ e ∈ L, e.2 = i → e.1 = new) :
    (L.foldl (moveStep old new) st).obj i = st.obj i := by
  induction L generalizing st with
  | nil => rfl
  | cons e L ih =>
    rw [List.foldl_cons, ih _ (fun e he => h e (List.mem_cons_of_mem _ he))]
    unfold moveStep
    split
    · rfl
    · rename_i hne
      split
      · simp only
        rw [upd_ne (fun hi => hne (h e (List.mem_cons_self ..) hi.symm))]
      · rfl

/-- C67: moving a node to where it is already is reported as a failure. -/
theorem C67_same_place_violation (st : St) (K : LayerOk st) (i : Nat) (par : List Str) (x : Str) (hx : Names (par ++ [x]))
    (hi : get? (render (par ++ [x])) st.byPath = some i) :
    ∃ st', parentNodes st [(i, x)] (render par) = .raised st' := by
  have hib := (K.inv _ _).1 hi
  have hjoin : joinNodePath (render par) x = render (par ++ [x]) := (C09_parent_name_join par x hx).2.2.1
  obtain ⟨obj1, e1, -⟩ := unorder_tables st i (render (par ++ [x]))
  have hone : ∃ st', parentOne st i (render par) x = some st' ∧ (st'.obj i).parent = render par ∧ (st'.obj i).name = x := by
    unfold parentOne
    rw [hib]
    simp only [hi, e1, hjoin]
    refine ⟨_, rfl, ?_⟩
    have hmem : ∀ e ∈ Dict.set (render (par ++ [x])) i (Dict.erase (render (par ++ [x])) st.byPath), e.2 = i →
        e.1 = render (par ++ [x]) := by
      intro e he hei
      have hok : Ok (Dict.set (render (par ++ [x])) i (Dict.erase (render (par ++ [x])) st.byPath)) := ok_set (ok_erase K.okPath _) _ _
      have := (get?_iff_mem hok).2 (show (e.1, e.2) ∈ _ from he)
      rw [get?_set] at this
      split at this
      · assumption
      · rw [get?_erase K.okPath] at this
        split at this
        · exact nomatch this
        · rw [hei] at this
          exact Linked.inj K.toLinked this hi
    have hname : ∀ f : Nat → NodeObj, (upd f i (fun n => { n with parent := render par }) i).parent = render par ∧
        (upd f i (fun n => { n with parent := render par }) i).name = (f i).name := by
      intro f; rw [upd_same]; exact ⟨rfl, rfl⟩
    cases hq : get? (render par) st.byPath with
    | none =>
      simp only
      rw [foldl_moveStep_obj _ _ _ _ _ hmem]
      simp only
      rw [(hname _).1, (hname _).2, upd_same]
      exact ⟨rfl, rfl⟩
    | some q =>
      simp only
      split
      · rw [foldl_moveStep_obj _ _ _ _ _ hmem]
        simp only
        rw [(hname _).1, (hname _).2, upd_same]
        exact ⟨rfl, rfl⟩
      · rw [foldl_moveStep_obj _ _ _ _ _ hmem]
        simp only
        rw [(hname _).1, (hname _).2, (samePlace_upd _ _ _ i).1, upd_same]
        exact ⟨rfl, rfl⟩
  obtain ⟨st', a, b, c⟩ := hone
  refine ⟨refresh st', ?_⟩
  unfold parentNodes
  rw [if_neg (by simp)]
  unfold parentLoop
  rw [a]
  simp only [hib, Option.getD_some, List.nil_append]
  unfold parentLoop
  simp only
  rw [if_neg]
  simp only [List.zip_cons_cons, List.zip_nil_right, List.all_cons, List.all_nil, Bool.and_true]
  unfold parentedOk
  show ¬ ((render (par ++ [x]) != joinNodePath ((refresh st').obj i).parent ((refresh st').obj i).name && _) = true)
  have : joinNodePath ((refresh st').obj i).parent ((refresh st').obj i).name = render (par ++ [x]) := by
    show joinNodePath (st'.obj i).parent (st'.obj i).name = _
    rw [b, c, hjoin]
  rw [this]
  simp

/-- A layer with child orders: `/a` lists `b` and the missing `m`; two nodes are below `/a/m`. -/
def orderSample : St := construct [("/a".toList, ["m".toList, "b".toList]), ("/a/b".toList, []), ("/a/b/c".toList, []),
  ("/a/m/x".toList, []), ("/a/m/y".toList, []), ("/p".toList, [])]

-- moving `/a/m/x` away takes `m` from the child order of `/a`, with `/a/m/y` left
example : ∃ st', parentOne orderSample 3 "/p".toList "x".toList = some st' ∧
    get? 4 st'.byNode = some "/a/m/y".toList ∧ (st'.obj 0).order = ["b".toList] ∧ (st'.obj 5).order = ["x".toList] := by
  refine ⟨_, rfl, ?_, ?_, ?_⟩ <;> decide +kernel

-- renaming `/a/b` keeps its place in `/a` and adds `c` to its own child order
example : (match setNodeName orderSample 1 "z".toList with
    | .ok st' => some ((st'.obj 0).order, (st'.obj 1).order, get? 2 st'.byNode)
    | .raised _ => none) = some (["m".toList, "z".toList], ["c".toList], some "/a/z/c".toList) := by
  decide +kernel

-- deleting `/a/b` with all below it
example : ∃ st', deleteNode ["/a/b/c".toList] true true orderSample 1 = .ok st' ∧ (st'.obj 0).order = ["m".toList] := by
  refine ⟨_, rfl, ?_⟩ <;> decide +kernel

end Nxt.Props
