import Verif.Spec.Edit
import Verif.Lemmas.Dict
import Verif.Lemmas.Path
import Verif.Props.Path
import Verif.Props.Lists
import Verif.Props.Children
/-!
# Lemmas about the edits of a layer
-/
namespace Nxt.Edit
open Dict Spec Path

theorem placed_shape {p : Str} {n : NodeObj} (h : Placed p n) : ∃ ns, Names ns ∧ p = render ns := by
  rcases h with ⟨h, -⟩ | ⟨ns, x, h1, h2, -⟩
  · exact ⟨[], names_nil, h⟩
  · exact ⟨_, h1, h2⟩

theorem toNamespace_render {ns : List Str} (h : Names ns) : toNamespace (render ns) = if ns = [] then [[]] else ns := by
  by_cases h0 : ns = []
  · subst h0; decide +kernel
  · have := Props.C08_namespace_roundtrip ns h h0
    rw [if_neg h0, ← this.1, this.2]

theorem placed_congr {p : Str} {n m : NodeObj} (h : Placed p n) (h1 : m.name = n.name) (h2 : m.parent = n.parent) :
    Placed p m := by
  unfold Placed
  rw [h1, h2]
  exact h

theorem mem_iff_get {K V : Type} [DecidableEq K] {d : Dict K V} (h : Ok d) {k : K} {v : V} :
    (k, v) ∈ d ↔ get? k d = some v := (get?_iff_mem h).symm

/-- Two paths never share an object. -/
theorem Linked.inj {st : St} (L : Linked st) {p q : Str} {i : Nat} (h1 : get? p st.byPath = some i)
    (h2 : get? q st.byPath = some i) : p = q := by
  have a := (L.inv p i).1 h1
  have b := (L.inv q i).1 h2
  rw [a] at b
  exact Option.some.inj b

/-- Moving one node to a free path. -/
theorem Linked.move {st : St} (L : Linked st) {p q : Str} {i : Nat} (h : get? p st.byPath = some i)
    (hq : q ∉ keys st.byPath) (obj : Nat → NodeObj)
    (ho : ∀ j, j ≠ i → (obj j).name = (st.obj j).name ∧ (obj j).parent = (st.obj j).parent)
    (hp : Placed q (obj i)) :
    Linked { st with obj := obj, byPath := Dict.set q i (Dict.erase p st.byPath), byNode := Dict.set i q st.byNode } := by
  have hne : q ≠ p := by
    rintro rfl
    exact hq (get?_isSome.1 (by rw [h]; rfl))
  have hqn : get? q st.byPath = none := get?_eq_none.2 hq
  have key : ∀ r j, get? r (Dict.set q i (Dict.erase p st.byPath)) = some j ↔
      (r = q ∧ j = i) ∨ (r ≠ q ∧ r ≠ p ∧ get? r st.byPath = some j) := by
    intro r j
    rw [get?_set, get?_erase L.okPath]
    by_cases hr : r = q
    · simp [hr, eq_comm]
    · rw [if_neg hr]
      by_cases hr2 : r = p
      · simp [hr2, hr]
        intro h; exact absurd h.symm hne
      · simp [hr, hr2]
  refine ⟨ok_set (ok_erase L.okPath _) _ _, ok_set L.okNode _ _, ?_, ?_⟩
  · intro r j
    show get? r (Dict.set q i (Dict.erase p st.byPath)) = some j ↔ get? j (Dict.set i q st.byNode) = some r
    rw [key, get?_set]
    by_cases hj : j = i
    · subst hj
      rw [if_pos rfl]
      constructor
      · rintro (⟨rfl, -⟩ | ⟨_, h2, h3⟩)
        · rfl
        · exact absurd (Linked.inj L h3 h) h2
      · intro h; exact .inl ⟨(Option.some.inj h).symm, rfl⟩
    · rw [if_neg hj, ← L.inv]
      constructor
      · rintro (⟨-, h2⟩ | ⟨_, _, h3⟩)
        · exact absurd h2 hj
        · exact h3
      · intro h'
        refine .inr ⟨?_, ?_, h'⟩
        · rintro rfl; rw [hqn] at h'; exact nomatch h'
        · rintro rfl; rw [h] at h'; exact hj (Option.some.inj h').symm
  · intro r j hr
    rcases (key r j).1 hr with ⟨rfl, rfl⟩ | ⟨_, h2, h3⟩
    · exact hp
    · have hj : j ≠ i := by
        rintro rfl; exact h2 (Linked.inj L h3 h)
      exact placed_congr (L.placed _ _ h3) (ho j hj).1 (ho j hj).2

theorem keys_move {st : St} (L : Linked st) {p q : Str} {i : Nat} (h : get? p st.byPath = some i) (hq : q ≠ p) (r : Str) :
    r ∈ keys (Dict.set q i (Dict.erase p st.byPath)) ↔ r = q ∨ (r ≠ p ∧ r ∈ keys st.byPath) := by
  rw [mem_keys_set, mem_keys_erase L.okPath]

/-- What moving the ancestor does to one path. -/
def goesTo (old new : Str) (p : Str) : Str :=
  if p = new then p else if Path.isAncestor p old then Path.replaceAncestor p old new else p

theorem goesTo_render {old new ls : List Str} (ho : Names old) (hn : Names new) (hl : Names ls) (h0 : old ≠ [])
    (h1 : ls ≠ old) (h3 : ls ≠ new ∨ ¬ old <+: ls) :
    goesTo (render old) (render new) (render ls) = render (relocate old new ls) := by
  unfold goesTo relocate
  by_cases hp : old <+: ls
  · rw [if_pos hp]
    obtain ⟨r, rfl⟩ := hp
    have hne : old ++ r ≠ new := by
      rcases h3 with h | h
      · exact h
      · exact absurd ⟨r, rfl⟩ h
    have hr : r ≠ [] := by rintro rfl; simp at h1
    rw [if_neg (fun h => hne (render_inj hl hn h)), if_pos ((Props.C10_is_ancestor _ _ hl ho).2 (.inr ⟨r, hr, rfl⟩)),
      Props.C12_replace_ancestor_partial old new r ho hn (names_append.1 hl).2 h0]
    simp
  · rw [if_neg hp, if_neg (c := (isAncestor (render ls) (render old)) = true)]
    · simp
    · rw [Props.C10_is_ancestor _ _ hl ho]
      rintro (h | ⟨r, _, rfl⟩)
      · exact h0 h
      · exact hp ⟨r, rfl⟩

/-- The state of the loop over the nodes when `L` is still to come. -/
structure LoopInv (old new : List Str) (st : St) (L : Dict Str Nat) : Prop where
  linked : Linked st
  pending : ∀ p i, (p, i) ∈ L → get? p st.byPath = some i
  nodup : Ok L
  pre : ∀ p ∈ keys L, p = render new ∨ ∀ r, p ≠ render (new ++ r)
  notOld : ∀ p ∈ keys L, p ≠ render old
  free : ∀ r, r ≠ [] → Names r → render (old ++ r) ∈ keys L → render (old ++ r) ≠ render new →
    render (new ++ r) ∉ keys st.byPath

theorem upd_ne {obj : Nat → NodeObj} {i j : Nat} {f : NodeObj → NodeObj} (h : j ≠ i) : upd obj i f j = obj j :=
  if_neg h
theorem upd_same {obj : Nat → NodeObj} {i : Nat} {f : NodeObj → NodeObj} : upd obj i f i = f (obj i) := if_pos rfl

/-- One round of the loop. -/
theorem LoopInv.step {old new : List Str} {st : St} {p : Str} {i : Nat} {L : Dict Str Nat}
    (ho : Names old) (hn : Names new) (h0 : old ≠ []) (hn0 : new ≠ []) (I : LoopInv old new st ((p, i) :: L)) :
    LoopInv old new (moveStep (render old) (render new) st (p, i)) L ∧
    (∀ q j, get? q (moveStep (render old) (render new) st (p, i)).byPath = some j ↔
      (q = goesTo (render old) (render new) p ∧ j = i) ∨ (q ≠ p ∧ get? q st.byPath = some j)) ∧
    (∀ j, j ∈ keys (moveStep (render old) (render new) st (p, i)).byNode ↔ j ∈ keys st.byNode) := by
  have hpi := I.pending p i (List.mem_cons_self ..)
  have hnd : p ∉ keys L ∧ (keys L).Nodup := List.nodup_cons.1 I.nodup
  have same : moveStep (render old) (render new) st (p, i) = st → goesTo (render old) (render new) p = p →
      LoopInv old new (moveStep (render old) (render new) st (p, i)) L ∧
      (∀ q j, get? q (moveStep (render old) (render new) st (p, i)).byPath = some j ↔
        (q = goesTo (render old) (render new) p ∧ j = i) ∨ (q ≠ p ∧ get? q st.byPath = some j)) ∧
      (∀ j, j ∈ keys (moveStep (render old) (render new) st (p, i)).byNode ↔ j ∈ keys st.byNode) := by
    intro e1 e2
    rw [e1, e2]
    refine ⟨(⟨I.linked, fun q j h => I.pending q j (List.mem_cons_of_mem _ h), hnd.2,
      fun q h => I.pre q (List.mem_cons_of_mem _ h), fun q h => I.notOld q (List.mem_cons_of_mem _ h),
      fun r hr hr2 h => I.free r hr hr2 (List.mem_cons_of_mem _ h)⟩ : LoopInv old new st L), ?_, fun _ => Iff.rfl⟩
    intro q j
    by_cases hq : q = p
    · subst hq
      rw [hpi]
      simp [eq_comm]
    · simp [hq]
  by_cases h1 : p = render new
  · exact same (by unfold moveStep; rw [if_pos h1]) (by unfold goesTo; rw [if_pos h1])
  by_cases h2 : isAncestor p (render old) = true
  · obtain ⟨ls, hls, rfl⟩ := placed_shape (I.linked.placed _ _ hpi)
    rw [Props.C10_is_ancestor _ _ hls ho] at h2
    rcases h2 with h2 | ⟨r, hr, rfl⟩
    · exact absurd h2 h0
    have hrn : Names r := (names_append.1 hls).2
    have hup : replaceAncestor (render (old ++ r)) (render old) (render new) = render (new ++ r) :=
      Props.C12_replace_ancestor_partial old new r ho hn hrn h0
    have hanc : isAncestor (render (old ++ r)) (render old) = true := (Props.C10_is_ancestor _ _ hls ho).2 (.inr ⟨r, hr, rfl⟩)
    have hgo : goesTo (render old) (render new) (render (old ++ r)) = render (new ++ r) := by
      unfold goesTo
      rw [if_neg h1, if_pos hanc, hup]
    have hfree : render (new ++ r) ∉ keys st.byPath := I.free r hr hrn (List.mem_cons_self ..) h1
    have hneq : render (new ++ r) ≠ render (old ++ r) := fun h =>
      hfree (by rw [h]; exact get?_isSome.1 (by rw [hpi]; rfl))
    have hmk : moveKey (render (old ++ r)) (render (new ++ r)) st.byPath =
        Dict.set (render (new ++ r)) i (Dict.erase (render (old ++ r)) st.byPath) := by
      unfold moveKey
      rw [hpi]
    have hstep : moveStep (render old) (render new) st (render (old ++ r), i) =
        { st with
          obj := upd st.obj i (fun n => { n with parent := replaceAncestor n.parent (render old) (render new) })
          byPath := Dict.set (render (new ++ r)) i (Dict.erase (render (old ++ r)) st.byPath)
          byNode := Dict.set i (render (new ++ r)) st.byNode } := by
      unfold moveStep
      simp only
      rw [if_neg h1, if_pos hanc, hup, hmk]
    have hL : Linked (moveStep (render old) (render new) st (render (old ++ r), i)) := by
      rw [hstep]
      apply Linked.move I.linked hpi hfree
      · intro j hj; rw [upd_ne hj]; exact ⟨rfl, rfl⟩
      · rw [upd_same]
        rcases I.linked.placed _ _ hpi with ⟨h, -⟩ | ⟨ns, x, a, b, c, d⟩
        · exact absurd ((render_eq_world hls).1 h) (by simp [h0])
        · have e := render_inj hls a b
          rcases eq_nil_or_snoc r with rfl | ⟨m, y, rfl⟩
          · exact absurd rfl hr
          · rw [← List.append_assoc] at e
            have e1 := List.append_inj' e rfl
            obtain ⟨e2, e3⟩ := e1
            have e3 : y = x := by simpa using e3
            subst e3; subst e2
            refine .inr ⟨new ++ m, y, ?_, by rw [List.append_assoc], ?_, d⟩
            · rw [List.append_assoc]; exact names_append.2 ⟨hn, hrn⟩
            · show replaceAncestor (st.obj i).parent (render old) (render new) = render (new ++ m)
              rw [c]
              exact Props.C12_replace_ancestor_partial old new m ho hn (names_append.1 hrn).1 h0
    have hkeys : ∀ q, q ∈ keys (moveStep (render old) (render new) st (render (old ++ r), i)).byPath ↔
        q = render (new ++ r) ∨ (q ≠ render (old ++ r) ∧ q ∈ keys st.byPath) := by
      rw [hstep]; exact keys_move I.linked hpi hneq
    have hget : ∀ q j, get? q (moveStep (render old) (render new) st (render (old ++ r), i)).byPath = some j ↔
      (q = render (new ++ r) ∧ j = i) ∨ (q ≠ render (old ++ r) ∧ get? q st.byPath = some j) := by
      intro q j
      rw [hstep]
      show get? q (Dict.set (render (new ++ r)) i (Dict.erase (render (old ++ r)) st.byPath)) = some j ↔ _
      rw [get?_set, get?_erase I.linked.okPath]
      by_cases hq : q = render (new ++ r)
      · subst hq
        rw [if_pos rfl, get?_eq_none.2 hfree]
        simp [eq_comm]
      · rw [if_neg hq]
        by_cases hq2 : q = render (old ++ r)
        · simp [hq2, Ne.symm hneq]
        · simp [hq2, hq]
    rw [hgo]
    refine ⟨⟨hL, ?_, hnd.2, fun q h => I.pre q (List.mem_cons_of_mem _ h),
      fun q h => I.notOld q (List.mem_cons_of_mem _ h), ?_⟩, hget, ?_⟩
    · intro q j hq
      rw [hget]
      refine .inr ⟨?_, I.pending q j (List.mem_cons_of_mem _ hq)⟩
      rintro rfl
      exact hnd.1 (mem_keys_of_mem hq)
    · intro s hs hsn hk hne hin
      rcases (hkeys _).1 hin with h | ⟨_, h⟩
      · have := render_inj (names_append.2 ⟨hn, hsn⟩) (names_append.2 ⟨hn, hrn⟩) h
        have := List.append_cancel_left this
        subst this
        exact hnd.1 hk
      · exact I.free s hs hsn (List.mem_cons_of_mem _ hk) hne h
    · intro j
      rw [hstep]
      show j ∈ keys (Dict.set i (render (new ++ r)) st.byNode) ↔ _
      rw [mem_keys_set]
      constructor
      · rintro (rfl | h)
        · exact get?_isSome.1 (by rw [(I.linked.inv _ _).1 hpi]; rfl)
        · exact h
      · exact .inr
  · exact same (by unfold moveStep; simp only; rw [if_neg h1, if_neg h2])
      (by unfold goesTo; rw [if_neg h1, if_neg h2])

/-- The whole loop. -/
theorem LoopInv.run {old new : List Str} (ho : Names old) (hn : Names new) (h0 : old ≠ []) (hn0 : new ≠ []) :
    ∀ (L : Dict Str Nat) (st : St), LoopInv old new st L →
    Linked (L.foldl (moveStep (render old) (render new)) st) ∧
    (∀ q j, get? q (L.foldl (moveStep (render old) (render new)) st).byPath = some j ↔
      (∃ p, (p, j) ∈ L ∧ q = goesTo (render old) (render new) p) ∨ (q ∉ keys L ∧ get? q st.byPath = some j)) ∧
    (∀ j, j ∈ keys (L.foldl (moveStep (render old) (render new)) st).byNode ↔ j ∈ keys st.byNode) ∧
    (L.foldl (moveStep (render old) (render new)) st).specs = st.specs ∧
    (L.foldl (moveStep (render old) (render new)) st).positions = st.positions ∧
    (L.foldl (moveStep (render old) (render new)) st).collapse = st.collapse ∧
    (∀ j, ((L.foldl (moveStep (render old) (render new)) st).obj j).name = (st.obj j).name ∧
      ((L.foldl (moveStep (render old) (render new)) st).obj j).order = (st.obj j).order) := by
  intro L
  induction L with
  | nil => intro st I; exact ⟨I.linked, by simp, fun _ => Iff.rfl, rfl, rfl, rfl, fun _ => ⟨rfl, rfl⟩⟩
  | cons e L ih =>
    obtain ⟨p, i⟩ := e
    intro st I
    obtain ⟨J, hg, hk⟩ := I.step ho hn h0 hn0
    obtain ⟨a, b, c, d, e, f, g⟩ := ih _ J
    have hs : ∀ st : St, (moveStep (render old) (render new) st (p, i)).specs = st.specs ∧
        (moveStep (render old) (render new) st (p, i)).positions = st.positions ∧
        (moveStep (render old) (render new) st (p, i)).collapse = st.collapse ∧
        ∀ j, ((moveStep (render old) (render new) st (p, i)).obj j).name = (st.obj j).name ∧
          ((moveStep (render old) (render new) st (p, i)).obj j).order = (st.obj j).order := by
      intro st
      unfold moveStep
      simp only
      split
      · exact ⟨rfl, rfl, rfl, fun _ => ⟨rfl, rfl⟩⟩
      · split
        · refine ⟨rfl, rfl, rfl, fun j => ?_⟩
          by_cases hj : j = i
          · subst hj; simp [upd_same]
          · simp [upd_ne hj]
        · exact ⟨rfl, rfl, rfl, fun _ => ⟨rfl, rfl⟩⟩
    obtain ⟨s1, s2, s3, s4⟩ := hs st
    refine ⟨a, ?_, fun j => (c j).trans (hk j), d.trans s1, e.trans s2, f.trans s3,
      fun j => ⟨(g j).1.trans (s4 j).1, (g j).2.trans (s4 j).2⟩⟩
    intro q j
    show get? q (L.foldl _ (moveStep (render old) (render new) st (p, i))).byPath = some j ↔ _
    rw [b q j, hg]
    have hnd : p ∉ keys L := (List.nodup_cons.1 I.nodup).1
    constructor
    · rintro (⟨p', h1, h2⟩ | ⟨h1, (⟨h2, h3⟩ | ⟨h2, h3⟩)⟩)
      · exact .inl ⟨p', List.mem_cons_of_mem _ h1, h2⟩
      · subst h3; exact .inl ⟨p, List.mem_cons_self .., h2⟩
      · exact .inr ⟨by simp [h1, h2], h3⟩
    · rintro (⟨p', h1, h2⟩ | ⟨h1, h2⟩)
      · rcases List.mem_cons.1 h1 with h | h
        · cases h
          refine .inr ⟨?_, .inl ⟨h2, rfl⟩⟩
          -- the target is not among the keys to come
          intro hmem
          by_cases hgp : goesTo (render old) (render new) p = p
          · rw [h2, hgp] at hmem; exact hnd hmem
          · have hpi := I.pending p _ (List.mem_cons_self ..)
            have hq : q ∈ keys st.byPath := by
              obtain ⟨k, hk'⟩ := mem_keys.1 hmem
              exact get?_isSome.1 (by rw [I.pending q k (List.mem_cons_of_mem _ hk')]; rfl)
            obtain ⟨ls, hls, rfl⟩ := placed_shape (I.linked.placed _ _ hpi)
            unfold goesTo at hgp h2
            split at hgp
            · exact hgp rfl
            · rename_i h1'
              rw [if_neg h1'] at h2
              split at hgp
              · rename_i h2'
                rw [if_pos h2'] at h2
                rw [Props.C10_is_ancestor _ _ hls ho] at h2'
                rcases h2' with h2' | ⟨r, hr, rfl⟩
                · exact h0 h2'
                · have hrn : Names r := (names_append.1 hls).2
                  rw [Props.C12_replace_ancestor_partial old new r ho hn hrn h0] at h2
                  exact I.free r hr hrn (List.mem_cons_self ..) h1' (by rw [← h2]; exact hq)
              · exact hgp rfl
        · exact .inl ⟨p', h, h2⟩
      · simp only [keys_cons, List.mem_cons, not_or] at h1
        exact .inr ⟨h1.2, .inr ⟨h1.1, h2⟩⟩

/-- The objects keep their names and parent paths. -/
def SamePlace (f g : Nat → NodeObj) : Prop := ∀ j, (f j).name = (g j).name ∧ (f j).parent = (g j).parent

theorem samePlace_refl (f : Nat → NodeObj) : SamePlace f f := fun _ => ⟨rfl, rfl⟩
theorem SamePlace.trans {f g h : Nat → NodeObj} (a : SamePlace f g) (b : SamePlace g h) : SamePlace f h :=
  fun j => ⟨(a j).1.trans (b j).1, (a j).2.trans (b j).2⟩

theorem samePlace_upd (f : Nat → NodeObj) (p : Nat) (g : NodeObj → List Str) :
    SamePlace (upd f p (fun n => { n with order := g n })) f := by
  intro j
  by_cases h : j = p
  · subst h; rw [upd_same]; exact ⟨rfl, rfl⟩
  · rw [upd_ne h]; exact ⟨rfl, rfl⟩

theorem Linked.congr {st : St} (L : Linked st) {obj : Nat → NodeObj} (h : SamePlace obj st.obj) :
    Linked { st with obj := obj } :=
  ⟨L.okPath, L.okNode, L.inv, fun p i hp => placed_congr (L.placed p i hp) (h i).1 (h i).2⟩

theorem unorder_tables (st : St) (i : Nat) (old : Str) :
    ∃ obj, unorder st i old = { st with obj := obj } ∧ SamePlace obj st.obj := by
  unfold unorder
  split
  · exact ⟨st.obj, rfl, samePlace_refl _⟩
  · split
    · exact ⟨_, rfl, samePlace_upd _ _ _⟩
    · split
      · exact ⟨st.obj, rfl, samePlace_refl _⟩
      · exact ⟨_, rfl, samePlace_upd _ _ _⟩

theorem names_nodup {st : St} (L : Linked st) : (st.byPath.map Prod.snd).Nodup := by
  have : ∀ (l : Dict Str Nat), (∀ e ∈ l, get? e.1 st.byPath = some e.2) → (keys l).Nodup → (l.map Prod.snd).Nodup := by
    intro l
    induction l with
    | nil => intro _ _; exact List.nodup_nil
    | cons e l ih =>
      intro h hn
      rw [keys_cons, List.nodup_cons] at hn
      rw [List.map_cons, List.nodup_cons]
      refine ⟨?_, ih (fun e' he => h e' (List.mem_cons_of_mem _ he)) hn.2⟩
      intro hm
      obtain ⟨e', he', h2⟩ := List.mem_map.1 hm
      have a := h e (List.mem_cons_self ..)
      have b := h e' (List.mem_cons_of_mem _ he')
      rw [h2] at b
      have := Linked.inj L a b
      exact hn.1 (by rw [this]; exact List.mem_map.2 ⟨e', he', rfl⟩)
  exact this _ (fun e he => (mem_iff_get L.okPath).1 he) L.okPath

/-- After `refresh` the node table is right. -/
theorem tablesOk_refresh {st : St} (L : Linked st) : TablesOk (refresh st) := by
  have hp : (refresh st).table.Perm (st.byPath.map (fun e => (toNamespace e.1, e.2))) := (Props.C16_stable_sort _ _).1
  refine ⟨⟨L.okPath, L.okNode, L.inv, L.placed⟩, ?_, ?_⟩
  · have := (hp.map Prod.snd).nodup_iff.2 (by rw [List.map_map]; exact names_nodup L)
    exact this
  · intro ns i
    rw [hp.mem_iff, List.mem_map]
    show (∃ a ∈ st.byPath, (toNamespace a.1, a.2) = (ns, i)) ↔ (ns = [[]] ∧ get? i st.byNode = some ['/']) ∨
      (ns ≠ [] ∧ Names ns ∧ get? i st.byNode = some (render ns))
    constructor
    · rintro ⟨⟨p, j⟩, h1, h2⟩
      simp only [Prod.mk.injEq] at h2
      obtain ⟨h2, rfl⟩ := h2
      have hg := (mem_iff_get L.okPath).1 h1
      obtain ⟨ms, hms, rfl⟩ := placed_shape (L.placed _ _ hg)
      rw [toNamespace_render hms] at h2
      by_cases h0 : ms = []
      · subst h0
        rw [if_pos rfl] at h2
        exact .inl ⟨h2.symm, (L.inv _ _).1 hg⟩
      · rw [if_neg h0] at h2
        subst h2
        exact .inr ⟨h0, hms, (L.inv _ _).1 hg⟩
    · rintro (⟨rfl, h⟩ | ⟨h0, h1, h2⟩)
      · exact ⟨(['/'], i), (mem_iff_get L.okPath).2 ((L.inv _ _).2 h), by simp; decide +kernel⟩
      · refine ⟨(render ns, i), (mem_iff_get L.okPath).2 ((L.inv _ _).2 h2), ?_⟩
        simp [toNamespace_render h1, h0]

/-- `parent_nodes` for one node, when the new path is free. -/
theorem parentOne_spec {st : St} (L : Linked st) {i : Nat} {old par : List Str} {x : Str} (ho : Names old) (h0 : old ≠ [])
    (hi : get? i st.byNode = some (render old)) (hn : Names (par ++ [x])) (hu : Unused st (par ++ [x])) :
    ∃ st', parentOne st i (render par) x = some st' ∧ Linked st' ∧ Moved old (par ++ [x]) st st' ∧
      (∀ j, j ∈ keys st'.byNode ↔ j ∈ keys st.byNode) ∧ st'.specs = st.specs ∧ st'.positions = st.positions ∧
      st'.collapse = moveKey (render old) (render (par ++ [x])) st.collapse ∧
      (st'.obj i).name = x ∧ ∀ j, j ≠ i → (st'.obj j).name = (st.obj j).name := by
  have hv : get? (render old) st.byPath = some i := (L.inv _ _).2 hi
  have hjoin : joinNodePath (render par) x = render (par ++ [x]) := (Props.C09_parent_name_join par x hn).2.2.1
  obtain ⟨obj1, e1, s1⟩ := unorder_tables st i (render old)
  -- the objects just before the tables change
  have hobj : ∃ obj2, SamePlace obj2 (upd st.obj i (fun n => { n with name := x, parent := render par })) ∧
      parentOne st i (render par) x =
      some (let new := render (par ++ [x])
        let st2 : St := { st with obj := obj2, byPath := Dict.set new i (Dict.erase (render old) st.byPath), byNode := Dict.set i new st.byNode }
        let st3 := st2.byPath.foldl (moveStep (render old) new) st2
        { st3 with collapse := moveKey (render old) new st3.collapse }) := by
    unfold parentOne
    rw [hi]
    simp only [hv, e1, hjoin]
    cases hp : get? (render par) st.byPath with
    | none =>
      refine ⟨_, ?_, rfl⟩
      intro j
      by_cases hj : j = i
      · subst hj; simp only [upd_same]; exact ⟨trivial, trivial⟩
      · simp only [upd_ne hj]; exact s1 j
    | some p =>
      simp only
      split
      · refine ⟨_, ?_, rfl⟩
        intro j
        by_cases hj : j = i
        · subst hj; simp only [upd_same]; exact ⟨trivial, trivial⟩
        · simp only [upd_ne hj]; exact s1 j
      · refine ⟨_, ?_, rfl⟩
        intro j
        by_cases hj : j = i
        · subst hj
          by_cases hjp : j = p
          · subst hjp; simp only [upd_same]; exact ⟨trivial, trivial⟩
          · simp only [upd_same, upd_ne hjp]; exact ⟨trivial, trivial⟩
        · by_cases hjp : j = p
          · subst hjp; simp only [upd_same, upd_ne hj]; exact s1 j
          · simp only [upd_ne hjp, upd_ne hj]; exact s1 j
  obtain ⟨obj2, s2, hpar⟩ := hobj
  have hnew : render (par ++ [x]) ∉ keys st.byPath := by simpa using hu []
  have hoi : (obj2 i).name = x ∧ (obj2 i).parent = render par := by
    have := s2 i
    rw [upd_same] at this
    exact this
  have L2 := Linked.move L hv hnew obj2 (fun j hj => by
    have := s2 j; rw [upd_ne hj] at this; exact this) (.inr ⟨par, x, hn, rfl, hoi.2, hoi.1⟩)
  have hne : render (par ++ [x]) ≠ render old := fun h => hnew (by rw [h]; exact get?_isSome.1 (by rw [hv]; rfl))
  have hkeys := keys_move L hv hne
  have I : LoopInv old (par ++ [x]) { st with obj := obj2, byPath := Dict.set (render (par ++ [x])) i (Dict.erase (render old) st.byPath), byNode := Dict.set i (render (par ++ [x])) st.byNode }
      (Dict.set (render (par ++ [x])) i (Dict.erase (render old) st.byPath)) := by
    refine ⟨L2, fun p j h => (mem_iff_get L2.okPath).1 h, L2.okPath, ?_, ?_, ?_⟩
    · intro p hp
      rcases (hkeys p).1 hp with h | ⟨_, h⟩
      · exact .inl h
      · exact .inr fun r hr => hu r (by rw [← hr]; exact h)
    · intro p hp
      rcases (hkeys p).1 hp with h | ⟨h, _⟩
      · rw [h]; exact hne
      · exact h
    · intro r hr hrn _ _ hin
      rcases (hkeys _).1 hin with h | ⟨_, h⟩
      · have := render_inj (names_append.2 ⟨hn, hrn⟩) hn h
        simp at this
        exact hr this
      · exact hu r h
  obtain ⟨a, b, c, d, e, f, g⟩ := LoopInv.run ho hn h0 (by simp) _ _ I
  refine ⟨_, hpar, ⟨a.okPath, a.okNode, a.inv, a.placed⟩, ?_, ?_, d, e, congrArg (moveKey (render old) (render (par ++ [x]))) f, ?_, ?_⟩
  · -- where the nodes are
    intro ms j hms
    refine (b (render ms) j).trans ?_
    constructor
    · rintro (⟨p, h1, h2⟩ | ⟨h1, h2⟩)
      · have hp := (mem_iff_get L2.okPath).1 h1
        obtain ⟨ls, hls, rfl⟩ := placed_shape (L2.placed _ _ hp)
        have hp' : get? (render ls) (Dict.set (render (par ++ [x])) i (Dict.erase (render old) st.byPath)) = some j := hp
        rw [get?_set, get?_erase L.okPath] at hp'
        by_cases hls2 : ls = par ++ [x]
        · subst hls2
          rw [if_pos rfl] at hp'
          have : goesTo (render old) (render (par ++ [x])) (render (par ++ [x])) = render (par ++ [x]) := if_pos rfl
          rw [this] at h2
          have := render_inj hms hn h2
          refine ⟨old, ho, by rw [hv]; exact hp', ?_⟩
          unfold relocate
          simp [this]
        · rw [if_neg (fun h => hls2 (render_inj hls hn h))] at hp'
          split at hp'
          · exact nomatch hp'
          · rename_i hlo
            have hlo' : ls ≠ old := fun h => hlo (by rw [h])
            rw [goesTo_render ho hn hls h0 hlo' (.inl hls2)] at h2
            have hrel : Names (relocate old (par ++ [x]) ls) := by
              unfold relocate
              split
              · exact names_append.2 ⟨hn, fun y hy => hls y (List.mem_of_mem_drop hy)⟩
              · exact hls
            exact ⟨ls, hls, hp', render_inj hms hrel h2⟩
      · exact absurd (get?_isSome.1 (by rw [h2]; rfl)) h1
    · rintro ⟨ls, hls, h1, rfl⟩
      refine .inl ?_
      by_cases hlo : ls = old
      · subst hlo
        rw [hv] at h1
        obtain rfl := Option.some.inj h1
        refine ⟨render (par ++ [x]), (mem_iff_get L2.okPath).2 (by show get? _ (Dict.set _ _ _) = _; rw [get?_set, if_pos rfl]), ?_⟩
        have : goesTo (render ls) (render (par ++ [x])) (render (par ++ [x])) = render (par ++ [x]) := if_pos rfl
        rw [this]
        unfold relocate
        simp
      · have hl2 : ls ≠ par ++ [x] := by
          rintro rfl
          exact hnew (get?_isSome.1 (by rw [h1]; rfl))
        refine ⟨render ls, (mem_iff_get L2.okPath).2 ?_, ?_⟩
        · show get? _ (Dict.set _ _ _) = _
          rw [get?_set, get?_erase L.okPath, if_neg (fun h => hl2 (render_inj hls hn h)), if_neg (fun h => hlo (render_inj hls ho h))]
          exact h1
        · rw [goesTo_render ho hn hls h0 hlo (.inl hl2)]
  · intro j
    refine (c j).trans ?_
    show j ∈ keys (Dict.set i (render (par ++ [x])) st.byNode) ↔ _
    rw [mem_keys_set]
    constructor
    · rintro (rfl | h)
      · exact get?_isSome.1 (by rw [hi]; rfl)
      · exact h
    · exact .inr
  · exact (g i).1.trans hoi.1
  · intro j hj
    refine (g j).1.trans ?_
    have := s2 j
    rw [upd_ne hj] at this
    exact this.1

theorem relocate_of_not {old new ls : List Str} (h : ¬ old <+: ls) : relocate old new ls = ls := if_neg h
theorem relocate_append (old new r : List Str) : relocate old new (old ++ r) = new ++ r := by simp [relocate]

theorem names_relocate {old new ls : List Str} (hn : Names new) (hl : Names ls) : Names (relocate old new ls) := by
  unfold relocate
  split
  · exact names_append.2 ⟨hn, fun y hy => hl y (List.mem_of_mem_drop hy)⟩
  · exact hl

/-- The nodes still to be moved can be moved. -/
theorem CanMove.step {st st1 : St} {i : Nat} {x : Str} {rest : List (Nat × Str)} {par old : List Str}
    (L : Linked st) (L1 : Linked st1) (C : CanMove st ((i, x) :: rest) par) (ho : Names old)
    (hi : get? (render old) st.byPath = some i) (M : Moved old (par ++ [x]) st st1) : CanMove st1 rest par := by
  have hnd := List.nodup_cons.1 C.nodup
  have hnn := List.nodup_cons.1 C.namesNodup
  have hx : IsName x := C.names _ (List.mem_cons_self ..)
  have hnew : Names (par ++ [x]) := names_append.2 ⟨C.parNames, by intro y hy; rw [List.mem_singleton.1 hy]; exact hx⟩
  obtain ⟨old', ho', h0, hi', hpre⟩ := C.here _ (List.mem_cons_self ..)
  have : old' = old := by
    have h1 := Linked.inj L hi' hi
    exact render_inj ho' ho h1
  subst this
  refine ⟨C.parNames, fun e he => C.names e (List.mem_cons_of_mem _ he), hnd.2, hnn.2, ?_, ?_⟩
  · intro e he r hin
    obtain ⟨j, hj⟩ := Option.isSome_iff_exists.1 (get?_isSome.2 hin)
    obtain ⟨ms, hms, hms2⟩ := placed_shape (L1.placed _ _ hj)
    rw [hms2] at hj
    obtain ⟨ls, hls, h1, h2⟩ := (M ms j hms).1 hj
    have hxe : e.2 ≠ x := by
      rintro h
      exact hnn.1 (h ▸ List.mem_map.2 ⟨e, he, rfl⟩)
    have hsl : slashed (par ++ [e.2] ++ r) = slashed ms := by
      rw [render_ne_nil (by simp)] at hms2
      have : ms ≠ [] := by
        rintro rfl
        rw [render_nil] at hms2
        have hl := congrArg List.length hms2
        have hen := (C.names e (List.mem_cons_of_mem _ he)).1
        rw [slashed_append, slashed_append] at hl
        simp only [slashed, List.length_append, List.length_cons, WORLD, List.length_nil] at hl
        have := List.length_pos_iff.2 hen
        omega
      rw [render_ne_nil this] at hms2
      exact hms2
    have hc1 : ∃ r', ms = par ++ [e.2] ++ r' := by
      have hp : (slashed (par ++ [e.2])) ++ slashed r = slashed ms := by rw [← hsl, slashed_append (par ++ [e.2])]
      have hcase : slashed r = [] ∨ ∃ t, slashed r = '/' :: t := by
        cases r with
        | nil => exact .inl rfl
        | cons a b => exact .inr ⟨_, rfl⟩
      have hne : Names (par ++ [e.2]) := names_append.2 ⟨C.parNames, by
        intro y hy; rw [List.mem_singleton.1 hy]; exact C.names e (List.mem_cons_of_mem _ he)⟩
      rcases hcase with h | ⟨t, h⟩
      · rw [h, List.append_nil] at hp
        exact ⟨[], by rw [List.append_nil]; exact (slashed_inj hne hms hp).symm⟩
      · rw [h] at hp
        have : isAncestor (render ms) (render (par ++ [e.2])) = true := by
          unfold isAncestor
          rw [if_neg (by rw [render_eq_world hne]; simp), Py.startsWith_iff]
          have hms0 : ms ≠ [] := by
            rintro rfl
            simp only [slashed] at hp
            simp at hp
          rw [render_ne_nil hms0, render_ne_nil (by simp)]
          exact ⟨t, by rw [← hp]; simp [SEP]⟩
        rcases (Props.C10_is_ancestor _ _ hms hne).1 this with h' | ⟨r', _, h'⟩
        · exact absurd h' (by simp)
        · exact ⟨r', h'⟩
    obtain ⟨r', hr'⟩ := hc1
    rw [h2] at hr'
    by_cases hp : old' <+: ls
    · obtain ⟨s, rfl⟩ := hp
      rw [relocate_append, List.append_assoc, List.append_assoc] at hr'
      have := List.append_cancel_left hr'
      simp at this
      exact hxe this.1.symm
    · rw [relocate_of_not hp] at hr'
      subst hr'
      exact C.unused e (List.mem_cons_of_mem _ he) r' (get?_isSome.1 (by rw [h1]; rfl))
  · intro e he
    obtain ⟨o, h1, h2, h3, h4⟩ := C.here e (List.mem_cons_of_mem _ he)
    refine ⟨relocate old' (par ++ [x]) o, names_relocate hnew h1, ?_, (M _ _ (names_relocate hnew h1)).2 ⟨o, h1, h3, rfl⟩, ?_⟩
    · unfold relocate
      split
      · simp
      · exact h2
    · unfold relocate
      split
      · rintro ⟨s, hs⟩
        have := congrArg List.length hs
        simp at this
      · exact h4

theorem prefix_snoc {a b : List Str} {y : Str} (h : a <+: b ++ [y]) : a <+: b ∨ a = b ++ [y] := by
  rcases List.prefix_concat_iff.1 h with h | h
  · exact .inr h
  · exact .inl h

/-- The loop of `parent_nodes`. -/
theorem parentLoop_spec {par : List Str} : ∀ (nodes : List (Nat × Str)) (st : St) (olds : List Str), Linked st →
    CanMove st nodes par → ∃ st' olds', parentLoop (render par) nodes st olds = some (st', olds ++ olds') ∧
      Linked st' ∧ MovedSeq par nodes st st' ∧ (∀ j, j ∈ keys st'.byNode ↔ j ∈ keys st.byNode) ∧
      st'.specs = st.specs ∧ st'.positions = st.positions ∧
      (∀ o e, (o, e) ∈ olds'.zip nodes → get? (render (par ++ [e.2])) st'.byPath = some e.1 ∧ o ≠ render (par ++ [e.2])) ∧
      (∀ y j, IsName y → j ∉ nodes.map Prod.fst → get? (render (par ++ [y])) st.byPath = some j →
        get? (render (par ++ [y])) st'.byPath = some j) := by
  intro nodes
  induction nodes with
  | nil =>
    intro st olds L _
    exact ⟨st, [], by simp [parentLoop], L, .nil (fun _ => rfl), fun _ => Iff.rfl, rfl, rfl, by simp, fun _ _ _ _ h => h⟩
  | cons e nodes ih =>
    obtain ⟨i, x⟩ := e
    intro st olds L C
    obtain ⟨old, ho, h0, hi, hpre⟩ := C.here _ (List.mem_cons_self ..)
    simp only at hi
    have hx : IsName x := C.names _ (List.mem_cons_self ..)
    have hsing : ∀ {y : Str}, IsName y → Names (par ++ [y]) := fun hy =>
      names_append.2 ⟨C.parNames, by intro z hz; rw [List.mem_singleton.1 hz]; exact hy⟩
    have hib : get? i st.byNode = some (render old) := (L.inv _ _).1 hi
    obtain ⟨st1, a, b, c, d, e, f, -⟩ := parentOne_spec L ho h0 hib (hsing hx) (C.unused _ (List.mem_cons_self ..))
    have C1 := CanMove.step L b C ho hi c
    obtain ⟨st', olds', a', b', c', d', e', f', g', k'⟩ := ih st1 (olds ++ [render old]) b C1
    have hnd := List.nodup_cons.1 C.nodup
    have hinew : get? (render (par ++ [x])) st1.byPath = some i :=
      (c _ _ (hsing hx)).2 ⟨old, ho, hi, by simp [relocate]⟩
    refine ⟨st', render old :: olds', ?_, b', .cons ho hi b c c', fun j => (d' j).trans (d j), e'.trans e, f'.trans f, ?_, ?_⟩
    · unfold parentLoop
      rw [a]
      simp only
      rw [hib]
      simpa using a'
    · intro o e he
      rw [List.zip_cons_cons, List.mem_cons] at he
      rcases he with he | he
      · cases he
        refine ⟨k' x i hx hnd.1 hinew, ?_⟩
        intro h
        have := C.unused _ (List.mem_cons_self ..) []
        rw [List.append_nil, ← h] at this
        exact this (get?_isSome.1 (by rw [hi]; rfl))
      · exact g' o e he
    · intro y j hy hj hyj
      rw [List.map_cons, List.mem_cons, not_or] at hj
      apply k' y j hy hj.2
      refine (c _ _ (hsing hy)).2 ⟨par ++ [y], hsing hy, hyj, ?_⟩
      rw [relocate_of_not]
      intro hp
      rcases prefix_snoc hp with h | h
      · exact hpre h
      · rw [h, hyj] at hi
        exact hj.1 (Option.some.inj hi)

/-- `parent_nodes`, when all can be moved. -/
theorem parentNodes_spec {st : St} {nodes : List (Nat × Str)} {par : List Str} (L : Linked st)
    (hs : st.specs.Nodup ∧ ∀ i, i ∈ st.specs ↔ i ∈ keys st.byNode) (hne : nodes ≠ []) (C : CanMove st nodes par) :
    ∃ st', parentNodes st nodes (render par) = .ok st' ∧ LayerOk st' ∧ MovedSeq par nodes st st' ∧
      (∀ j, j ∈ keys st'.byNode ↔ j ∈ keys st.byNode) ∧ st'.positions = st.positions := by
  obtain ⟨st', olds', a, b, c, d, e, f, g, -⟩ := parentLoop_spec nodes st [] L C
  refine ⟨refresh st', ?_, ⟨tablesOk_refresh b, ?_, ?_⟩, ?_, d, f⟩
  · unfold parentNodes
    rw [if_neg hne, a]
    simp only
    rw [if_pos]
    rw [List.all_eq_true]
    rintro ⟨o, e⟩ he
    have he' : (o, e) ∈ olds'.zip nodes := by simpa using he
    obtain ⟨h1, h2⟩ := g o e he'
    have hin : e ∈ nodes := (List.of_mem_zip he').2
    have hname : Names (par ++ [e.2]) := names_append.2 ⟨C.parNames, by
      intro z hz; rw [List.mem_singleton.1 hz]; exact C.names e hin⟩
    have hexp : joinNodePath (st'.obj e.1).parent (st'.obj e.1).name = render (par ++ [e.2]) := by
      rcases b.placed _ _ h1 with ⟨h, -⟩ | ⟨ns, x, p1, p2, p3, p4⟩
      · have := (render_eq_world hname).1 h
        simp at this
      · rw [p3, p4, (Props.C09_parent_name_join ns x p1).2.2.1, p2]
    unfold parentedOk
    simp only [refresh, hexp, (b.inv _ _).1 h1]
    simp [h2]
  · show st'.specs.Nodup
    rw [e]; exact hs.1
  · intro i
    show i ∈ st'.specs ↔ i ∈ keys st'.byNode
    rw [e, d, hs.2]
  · clear a g e d f
    have : ∀ {ns : List (Nat × Str)} {a b : St}, MovedSeq par ns a b → MovedSeq par ns a (refresh b) := by
      intro ns a b h
      induction h with
      | nil h => exact .nil h
      | cons h1 h2 h3 h4 _ ih => exact .cons h1 h2 h3 h4 ih
    exact this c

theorem tree_keys (st : St) : keys (tree st) = keys st.byPath := by
  unfold tree keys
  rw [List.map_map]
  rfl

theorem treeOk {st : St} (L : Linked st) : TreeOk (tree st) where
  ok := by unfold Ok; rw [tree_keys]; exact L.okPath
  node := by
    intro q n h
    obtain ⟨⟨p, i⟩, h1, h2⟩ := List.mem_map.1 h
    cases h2
    exact L.placed _ _ ((mem_iff_get L.okPath).1 h1)
  order := by
    intro q n h
    obtain ⟨⟨p, i⟩, h1, h2⟩ := List.mem_map.1 h
    cases h2
    exact List.nodup_nil

theorem scanOk (nodes : Tree.Nodes) : KidsOk nodes (Tree.scan (fun a b => a == b) nodes) :=
  Props.C46_scan nodes _ (fun a b => by simp)

/-- The children moved along by a change of name. -/
theorem realChildren_spec {st : St} (L : Linked st) {old : List Str} (ho : Names old) (h0 : old ≠ []) :
    (realChildren st (render old)).Nodup ∧
    ∀ c, c ∈ realChildren st (render old) ↔ ∃ y, IsName y ∧ get? (render (old ++ [y])) st.byPath = some c := by
  obtain ⟨h1, h2⟩ := Props.C46_implied_partial (tree st) _ (treeOk L) (scanOk _) old ho h0
  unfold realChildren
  constructor
  · refine List.Pairwise.filterMap _ ?_ h1
    intro a a' hne b hb b' hb' he
    subst he
    exact hne (Linked.inj L hb hb')
  · intro c
    rw [List.mem_filterMap]
    constructor
    · rintro ⟨p, hp, hc⟩
      obtain ⟨ns, x, rest, a1, a2, a3, a4⟩ := (h2 p).1 hp
      have := render_inj ho (names_append.1 (names_append.1 a1).1).1 a2
      subst this
      exact ⟨x, (names_append.1 (names_append.1 a1).1).2 x (by simp), by rw [← a3]; exact hc⟩
    · rintro ⟨y, hy, hc⟩
      refine ⟨_, (h2 _).2 ⟨old, y, [], ?_, rfl, rfl, ?_⟩, hc⟩
      · rw [List.append_nil]
        exact names_append.2 ⟨ho, by intro z hz; rw [List.mem_singleton.1 hz]; exact hy⟩
      · rw [List.append_nil, tree_keys]
        exact get?_isSome.1 (by rw [hc]; rfl)

open Classical in
/-- Moving children one after the other from `old` to `new`. -/
theorem movedSeq_children {old new : List Str} (ho : Names old) (hlen : new.length = old.length) (hne : new ≠ old) :
    ∀ {nodes : List (Nat × Str)} {st st' : St}, MovedSeq new nodes st st' → Linked st →
    (∀ e ∈ nodes, IsName e.2 ∧ get? (render (old ++ [e.2])) st.byPath = some e.1) → (nodes.map Prod.snd).Nodup →
    ∀ ms j, Names ms → (get? (render ms) st'.byPath = some j ↔
      ∃ ls, Names ls ∧ get? (render ls) st.byPath = some j ∧
        ms = if ∃ y ∈ nodes.map Prod.snd, old ++ [y] <+: ls then new ++ ls.drop old.length else ls) := by
  intro nodes st st' M
  induction M with
  | nil h =>
    intro _ _ _ ms j hms
    rw [h]
    simp only [List.map_nil, List.not_mem_nil, false_and, exists_false, if_false]
    constructor
    · intro h; exact ⟨ms, hms, h, rfl⟩
    · rintro ⟨ls, _, h, rfl⟩; exact h
  | @cons i x old' rest st st1 st' ho' hi L1 M1 MS ih =>
    intro L hn hnd ms j hms
    obtain ⟨hx, hxi⟩ := hn _ (List.mem_cons_self ..)
    have hold : Names (old ++ [x]) := names_append.2 ⟨ho, by intro z hz; rw [List.mem_singleton.1 hz]; exact hx⟩
    have : old' = old ++ [x] := render_inj ho' hold (Linked.inj L hi hxi)
    subst this
    have hnd' := List.nodup_cons.1 hnd
    have hnot : ∀ y r, ¬ old ++ [y] <+: new ++ r := by
      intro y r h
      have h1 : old <+: new ++ r := (List.prefix_append _ _).trans h
      have := List.prefix_of_prefix_length_le h1 (List.prefix_append new r) (by omega)
      exact hne (this.eq_of_length (by omega)).symm
    have hrest : ∀ e ∈ rest, IsName e.2 ∧ get? (render (old ++ [e.2])) st1.byPath = some e.1 := by
      intro e he
      obtain ⟨h1, h2⟩ := hn e (List.mem_cons_of_mem _ he)
      have he2 : Names (old ++ [e.2]) := names_append.2 ⟨ho, by intro z hz; rw [List.mem_singleton.1 hz]; exact h1⟩
      refine ⟨h1, (M1 _ _ he2).2 ⟨_, he2, h2, ?_⟩⟩
      rw [relocate_of_not]
      intro hp
      have := hp.eq_of_length (by simp)
      have := List.append_cancel_left this
      have hxe : x = e.2 := by simpa using this
      exact hnd'.1 (by rw [hxe]; exact List.mem_map.2 ⟨e, he, rfl⟩)
    have step : ∀ ls, (if ∃ y ∈ ((i, x) :: rest).map Prod.snd, old ++ [y] <+: ls then new ++ ls.drop old.length else ls) =
        (if ∃ y ∈ rest.map Prod.snd, old ++ [y] <+: relocate (old ++ [x]) (new ++ [x]) ls
          then new ++ (relocate (old ++ [x]) (new ++ [x]) ls).drop old.length
          else relocate (old ++ [x]) (new ++ [x]) ls) := by
      intro ls
      by_cases hp : old ++ [x] <+: ls
      · rw [if_pos ⟨x, by simp, hp⟩]
        obtain ⟨s, rfl⟩ := hp
        rw [relocate_append, if_neg]
        · simp
        · rintro ⟨y, _, h⟩
          rw [List.append_assoc] at h
          exact hnot _ _ h
      · rw [relocate_of_not hp]
        have : (∃ y ∈ ((i, x) :: rest).map Prod.snd, old ++ [y] <+: ls) ↔ ∃ y ∈ rest.map Prod.snd, old ++ [y] <+: ls := by
          simp only [List.map_cons, List.mem_cons, exists_eq_or_imp]
          constructor
          · rintro (h | h)
            · exact absurd h hp
            · exact h
          · exact .inr
        simp only [this]
    rw [ih L1 hrest hnd'.2 ms j hms]
    constructor
    · rintro ⟨l1, hl1, h1, h2⟩
      obtain ⟨ls, hls, h3, h4⟩ := (M1 _ _ hl1).1 h1
      exact ⟨ls, hls, h3, by rw [step, ← h4]; exact h2⟩
    · rintro ⟨ls, hls, h1, h2⟩
      rw [step] at h2
      refine ⟨relocate (old ++ [x]) (new ++ [x]) ls, ?_, ?_, h2⟩
      · by_cases hp : old ++ [x] <+: ls
        · -- the new names are those of a result
          obtain ⟨s, rfl⟩ := hp
          rw [relocate_append] at h2 ⊢
          rw [if_neg] at h2
          · rw [← h2]; exact hms
          · rintro ⟨y, _, h⟩
            rw [List.append_assoc] at h
            exact hnot _ _ h
        · rw [relocate_of_not hp]; exact hls
      · have hnm : Names (relocate (old ++ [x]) (new ++ [x]) ls) := by
          by_cases hp : old ++ [x] <+: ls
          · obtain ⟨s, rfl⟩ := hp
            rw [relocate_append] at h2 ⊢
            rw [if_neg] at h2
            · rw [← h2]; exact hms
            · rintro ⟨y, _, h⟩
              rw [List.append_assoc] at h
              exact hnot _ _ h
          · rw [relocate_of_not hp]; exact hls
        exact (M1 _ _ hnm).2 ⟨ls, hls, h1, rfl⟩

theorem nodup_map_on {α β : Type} {f : α → β} {l : List α} (h : ∀ a ∈ l, ∀ b ∈ l, f a = f b → a = b) (hn : l.Nodup) :
    (l.map f).Nodup := by
  induction l with
  | nil => exact List.nodup_nil
  | cons a l ih =>
    rw [List.nodup_cons] at hn
    rw [List.map_cons, List.nodup_cons]
    refine ⟨?_, ih (fun a ha b hb => h a (List.mem_cons_of_mem _ ha) b (List.mem_cons_of_mem _ hb)) hn.2⟩
    intro hm
    obtain ⟨b, hb, he⟩ := List.mem_map.1 hm
    have := h a (List.mem_cons_self ..) b (List.mem_cons_of_mem _ hb) he.symm
    exact hn.1 (by rw [this]; exact hb)

/-- The state just before the children of a renamed node are moved. -/
theorem setNodeName_start {st : St} (K : LayerOk st) {i : Nat} {par : List Str} {x name : Str} (hx : Names (par ++ [x]))
    (hi : get? (render (par ++ [x])) st.byPath = some i) (hn : IsName name) (hu : Unused st (par ++ [name])) :
    ∃ st2 : St, setNodeName st i name =
        (match parentNodes st2 ((realChildren st (render (par ++ [x]))).map (fun c => (c, (st2.obj c).name))) (render (par ++ [name])) with
        | .ok st => .ok (refresh st)
        | r => r) ∧ Linked st2 ∧
      (∀ q j, get? q st2.byPath = some j ↔ (q = render (par ++ [name]) ∧ j = i) ∨
        (q ≠ render (par ++ [x]) ∧ get? q st.byPath = some j)) ∧
      (∀ j, j ∈ keys st2.byNode ↔ j ∈ keys st.byNode) ∧ st2.specs = st.specs ∧
      st2.positions = moveKey (render (par ++ [x])) (render (par ++ [name])) st.positions ∧
      (∀ c ∈ realChildren st (render (par ++ [x])), ∃ y, IsName y ∧ (st2.obj c).name = y ∧
        get? (render (par ++ [x] ++ [y])) st.byPath = some c ∧ get? (render (par ++ [x] ++ [y])) st2.byPath = some c) ∧
      CanMove st2 ((realChildren st (render (par ++ [x]))).map (fun c => (c, (st2.obj c).name))) (par ++ [name]) ∧
      ∀ p, get? (render par) st.byPath = some p → ∀ j, (st2.obj j).order =
        if j = p then (st.obj j).order.map (fun z => if z = x then name else z) else (st.obj j).order := by
  have L : Linked st := K.toLinked
  have hpar : Names par := (names_append.1 hx).1
  have hnew : Names (par ++ [name]) := names_append.2 ⟨hpar, by intro z hz; rw [List.mem_singleton.1 hz]; exact hn⟩
  have hib : get? i st.byNode = some (render (par ++ [x])) := (L.inv _ _).1 hi
  have hplace : (st.obj i).parent = render par ∧ (st.obj i).name = x := by
    rcases L.placed _ _ hi with ⟨h, -⟩ | ⟨ns, y, p1, p2, p3, p4⟩
    · have := (render_eq_world hx).1 h
      simp at this
    · have := render_inj hx p1 p2
      have e := List.append_inj' this rfl
      obtain ⟨e1, e2⟩ := e
      subst e1
      have : x = y := by simpa using e2
      subst this
      exact ⟨p3, p4⟩
  have hfree : render (par ++ [name]) ∉ keys st.byPath := by simpa using hu []
  have hne : render (par ++ [name]) ≠ render (par ++ [x]) := fun h =>
    hfree (by rw [h]; exact get?_isSome.1 (by rw [hi]; rfl))
  have hmk : moveKey (render (par ++ [x])) (render (par ++ [name])) st.byPath =
      Dict.set (render (par ++ [name])) i (Dict.erase (render (par ++ [x])) st.byPath) := by
    unfold moveKey
    rw [hi]
  -- the state just before the children are moved
  have hobj : ∃ obj2, SamePlace obj2 (upd st.obj i (fun n => { n with name := name })) ∧
      (∀ p, get? (render par) st.byPath = some p → ∀ j, (obj2 j).order =
        if j = p then (st.obj j).order.map (fun z => if z = x then name else z) else (st.obj j).order) ∧
      setNodeName st i name =
        (let st2 : St := { st with
            obj := obj2
            positions := moveKey (render (par ++ [x])) (render (par ++ [name])) st.positions
            collapse := moveKey (render (par ++ [x])) (render (par ++ [name])) st.collapse
            byPath := Dict.set (render (par ++ [name])) i (Dict.erase (render (par ++ [x])) st.byPath)
            byNode := Dict.set i (render (par ++ [name])) st.byNode }
        match parentNodes st2 ((realChildren st (render (par ++ [x]))).map (fun c => (c, (st2.obj c).name))) (render (par ++ [name])) with
        | .ok st => .ok (refresh st)
        | r => r) := by
    unfold setNodeName
    simp only [hib, hplace.1, hplace.2, (Props.C09_parent_name_join par name hnew).2.2.1]
    cases get? (render par) st.byPath with
    | none => exact ⟨_, samePlace_refl _, (fun _ h => nomatch h), by simp only [hmk]; rfl⟩
    | some p =>
      refine ⟨_, samePlace_upd _ p _, fun q hq j => ?_, by simp only [hmk]; rfl⟩
      obtain rfl := Option.some.inj hq
      have hnm : ∀ j, (upd st.obj i (fun n => { n with name := name }) j).order = (st.obj j).order := by
        intro j
        by_cases hj : j = i
        · subst hj; rw [upd_same]
        · rw [upd_ne hj]
      by_cases hj : j = p
      · subst hj; rw [upd_same, if_pos rfl, hnm]
      · rw [upd_ne hj, if_neg hj, hnm]
  obtain ⟨obj2, s2, hord2, hset⟩ := hobj
  have hoi : (obj2 i).name = name ∧ (obj2 i).parent = render par := by
    have := s2 i
    rw [upd_same] at this
    exact ⟨this.1, this.2.trans hplace.1⟩
  have ho2 : ∀ j, j ≠ i → (obj2 j).name = (st.obj j).name ∧ (obj2 j).parent = (st.obj j).parent := by
    intro j hj
    have := s2 j
    rw [upd_ne hj] at this
    exact this
  obtain ⟨cn, cm⟩ := realChildren_spec L hx (by simp)
  generalize hst2 : ({ st with
            obj := obj2
            positions := moveKey (render (par ++ [x])) (render (par ++ [name])) st.positions
            collapse := moveKey (render (par ++ [x])) (render (par ++ [name])) st.collapse
            byPath := Dict.set (render (par ++ [name])) i (Dict.erase (render (par ++ [x])) st.byPath)
            byNode := Dict.set i (render (par ++ [name])) st.byNode } : St) = st2 at hset
  have L2 : Linked st2 := by
    have := Linked.move L hi hfree obj2 ho2 (.inr ⟨par, name, hnew, rfl, hoi.2, hoi.1⟩)
    subst hst2
    exact ⟨this.okPath, this.okNode, this.inv, this.placed⟩
  have hget2 : ∀ q j, get? q st2.byPath = some j ↔ (q = render (par ++ [name]) ∧ j = i) ∨
      (q ≠ render (par ++ [x]) ∧ get? q st.byPath = some j) := by
    intro q j
    subst hst2
    show get? q (Dict.set (render (par ++ [name])) i (Dict.erase (render (par ++ [x])) st.byPath)) = some j ↔ _
    rw [get?_set, get?_erase L.okPath]
    by_cases hq : q = render (par ++ [name])
    · subst hq
      rw [if_pos rfl, get?_eq_none.2 hfree]
      simp [eq_comm]
    · rw [if_neg hq]
      by_cases hq2 : q = render (par ++ [x])
      · simp [hq2, Ne.symm hne]
      · simp [hq2, hq]
  have hkn2 : ∀ j, j ∈ keys st2.byNode ↔ j ∈ keys st.byNode := by
    intro j
    subst hst2
    show j ∈ keys (Dict.set i (render (par ++ [name])) st.byNode) ↔ _
    rw [mem_keys_set]
    constructor
    · rintro (rfl | h)
      · exact get?_isSome.1 (by rw [hib]; rfl)
      · exact h
    · exact .inr
  have hspec2 : st2.specs = st.specs := by subst hst2; rfl
  have hpos2 : st2.positions = moveKey (render (par ++ [x])) (render (par ++ [name])) st.positions := by subst hst2; rfl
  have hobj2 : st2.obj = obj2 := by subst hst2; rfl
  -- the children in the new state
  have hlong : ∀ y r, par ++ [x] ++ y :: r ≠ par ++ [name] := by
    intro y r h
    have := congrArg List.length h
    simp at this
  have hlong2 : ∀ y r, par ++ [x] ++ y :: r ≠ par ++ [x] := by
    intro y r h
    have := congrArg List.length h
    simp at this
  have hchild : ∀ c ∈ realChildren st (render (par ++ [x])), ∃ y, IsName y ∧ (st2.obj c).name = y ∧
      get? (render (par ++ [x] ++ [y])) st.byPath = some c ∧ get? (render (par ++ [x] ++ [y])) st2.byPath = some c := by
    intro c hc
    obtain ⟨y, hy, hcy⟩ := (cm c).1 hc
    have hyn : Names (par ++ [x] ++ [y]) := names_append.2 ⟨hx, by intro z hz; rw [List.mem_singleton.1 hz]; exact hy⟩
    have h2 : get? (render (par ++ [x] ++ [y])) st2.byPath = some c :=
      (hget2 _ _).2 (.inr ⟨fun h => hlong2 y [] (render_inj hyn hx h), hcy⟩)
    refine ⟨y, hy, ?_, hcy, h2⟩
    rcases L2.placed _ _ h2 with ⟨h, -⟩ | ⟨ns, z, p1, p2, p3, p4⟩
    · have := (render_eq_world hyn).1 h
      simp at this
    · have := List.append_inj' (render_inj hyn p1 p2) rfl
      have e2 : y = z := by simpa using this.2
      rw [p4, e2]
  have C2 : CanMove st2 ((realChildren st (render (par ++ [x]))).map (fun c => (c, (st2.obj c).name))) (par ++ [name]) := by
    refine ⟨hnew, ?_, ?_, ?_, ?_, ?_⟩
    · intro e he
      obtain ⟨c, hc, rfl⟩ := List.mem_map.1 he
      obtain ⟨y, hy, h1, -⟩ := hchild c hc
      simp only
      rw [h1]; exact hy
    · rw [List.map_map]
      simpa [Function.comp_def] using cn
    · rw [List.map_map]
      refine nodup_map_on ?_ cn
      intro c hc c' hc' he
      obtain ⟨y, _, h1, h2, _⟩ := hchild c hc
      obtain ⟨y', _, h1', h2', _⟩ := hchild c' hc'
      have : y = y' := h1.symm.trans (he.trans h1')
      subst this
      rw [h2] at h2'
      exact Option.some.inj h2'
    · intro e he r hin
      obtain ⟨j, hj⟩ := Option.isSome_iff_exists.1 (get?_isSome.2 hin)
      rcases (hget2 _ _).1 hj with ⟨h, -⟩ | ⟨-, h⟩
      · obtain ⟨c, hc, rfl⟩ := List.mem_map.1 he
        obtain ⟨y, hy, h1, -⟩ := hchild c hc
        simp only at h
        rw [h1] at h
        have hl := congrArg List.length h
        rw [render_ne_nil (by simp), render_ne_nil (by simp), List.append_assoc (par ++ [name]), slashed_append (par ++ [name])] at hl
        simp [slashed] at hl
      · exact hu ([e.2] ++ r) (by rw [← List.append_assoc]; exact get?_isSome.1 (by rw [h]; rfl))
    · intro e he
      obtain ⟨c, hc, rfl⟩ := List.mem_map.1 he
      obtain ⟨y, hy, _, _, h2⟩ := hchild c hc
      refine ⟨par ++ [x] ++ [y], names_append.2 ⟨hx, by intro z hz; rw [List.mem_singleton.1 hz]; exact hy⟩, by simp, h2, ?_⟩
      intro hp
      have := hp.length_le
      simp at this
  exact ⟨st2, hset, L2, hget2, hkn2, hspec2, hpos2, hchild, C2, by rw [hobj2]; exact hord2⟩

open Classical in
/-- `set_node_name` to a free name. -/
theorem setNodeName_spec {st : St} (K : LayerOk st) {i : Nat} {par : List Str} {x name : Str} (hx : Names (par ++ [x]))
    (hi : get? (render (par ++ [x])) st.byPath = some i) (hn : IsName name) (hu : Unused st (par ++ [name])) :
    ∃ st', setNodeName st i name = .ok st' ∧ LayerOk st' ∧ Renamed (par ++ [x]) (par ++ [name]) st st' ∧
      (∀ j, j ∈ keys st'.byNode ↔ j ∈ keys st.byNode) ∧
      st'.positions = moveKey (render (par ++ [x])) (render (par ++ [name])) st.positions := by
  have L : Linked st := K.toLinked
  have hpar : Names par := (names_append.1 hx).1
  have hnew : Names (par ++ [name]) := names_append.2 ⟨hpar, by intro z hz; rw [List.mem_singleton.1 hz]; exact hn⟩
  have hfree : render (par ++ [name]) ∉ keys st.byPath := by simpa using hu []
  have hne : render (par ++ [name]) ≠ render (par ++ [x]) := fun h =>
    hfree (by rw [h]; exact get?_isSome.1 (by rw [hi]; rfl))
  obtain ⟨cn, cm⟩ := realChildren_spec L hx (by simp)
  have hlong : ∀ y r, par ++ [x] ++ y :: r ≠ par ++ [name] := by
    intro y r h
    have := congrArg List.length h
    simp at this
  obtain ⟨st2, hset, L2, hget2, hkn2, hspec2, hpos2, hchild, C2, -⟩ := setNodeName_start K hx hi hn hu
  -- what happens to them
  have hmoved : ∃ st3, parentNodes st2 ((realChildren st (render (par ++ [x]))).map (fun c => (c, (st2.obj c).name))) (render (par ++ [name])) = .ok st3 ∧
      Linked st3 ∧ (∀ j, j ∈ keys st3.byNode ↔ j ∈ keys st2.byNode) ∧ st3.specs.Nodup ∧ (∀ j, j ∈ st3.specs ↔ j ∈ keys st3.byNode) ∧
      st3.positions = st2.positions ∧
      MovedSeq (par ++ [name]) ((realChildren st (render (par ++ [x]))).map (fun c => (c, (st2.obj c).name))) st2 st3 := by
    by_cases hc0 : realChildren st (render (par ++ [x])) = []
    · rw [hc0]
      exact ⟨st2, by simp [parentNodes], L2, fun _ => Iff.rfl, by rw [hspec2]; exact K.specsNodup,
        fun j => by rw [hspec2, hkn2, K.specs], rfl, .nil (fun _ => rfl)⟩
    · obtain ⟨st3, a, b, c, d, e⟩ := parentNodes_spec (nodes := (realChildren st (render (par ++ [x]))).map (fun c => (c, (st2.obj c).name)))
        (par := par ++ [name]) L2 ⟨by rw [hspec2]; exact K.specsNodup, fun j => by rw [hspec2, hkn2, K.specs]⟩
        (by simpa using hc0) C2
      exact ⟨st3, a, b.toLinked, d, b.specsNodup, b.specs, e, c⟩
  obtain ⟨st3, h3, L3, hk3, hsn3, hs3, hp3, M3⟩ := hmoved
  have hxn : par ++ [name] ≠ par ++ [x] := fun h => hne (by rw [h])
  have hfinal := movedSeq_children hx (by simp) hxn M3 L2 (by
      intro e he
      obtain ⟨c, hc, rfl⟩ := List.mem_map.1 he
      obtain ⟨y, hy, h1, _, h2⟩ := hchild c hc
      simp only
      rw [h1]; exact ⟨hy, h2⟩) (by
      rw [List.map_map]
      refine nodup_map_on ?_ cn
      intro c hc c' hc' he
      obtain ⟨y, _, h1, h2, _⟩ := hchild c hc
      obtain ⟨y', _, h1', h2', _⟩ := hchild c' hc'
      have : y = y' := h1.symm.trans (he.trans h1')
      subst this
      rw [h2] at h2'
      exact Option.some.inj h2')
  refine ⟨refresh st3, by rw [hset]; simp only [h3], ⟨tablesOk_refresh L3, hsn3, hs3⟩, ?_, fun j => (hk3 j).trans (hkn2 j), hp3.trans hpos2⟩
  intro ms j hms
  refine (hfinal ms j hms).trans ?_
  have hprefix : ∀ ls, Names ls → ((∃ y ∈ (((realChildren st (render (par ++ [x]))).map (fun c => (c, (st2.obj c).name))).map Prod.snd), par ++ [x] ++ [y] <+: ls) ↔
      ∃ y r, ls = par ++ [x] ++ y :: r ∧ render (par ++ [x] ++ [y]) ∈ keys st.byPath) := by
    intro ls hls
    constructor
    · rintro ⟨y, hy, s, rfl⟩
      obtain ⟨e, he, rfl⟩ := List.mem_map.1 hy
      obtain ⟨c, hc, rfl⟩ := List.mem_map.1 he
      obtain ⟨y, _, h1, h2, _⟩ := hchild c hc
      simp only
      rw [h1]
      exact ⟨y, s, by simp, get?_isSome.1 (by rw [h2]; rfl)⟩
    · rintro ⟨y, r, rfl, hk⟩
      obtain ⟨c, hc⟩ := Option.isSome_iff_exists.1 (get?_isSome.2 hk)
      have hyn : IsName y := hls y (by simp)
      have hin := (cm c).2 ⟨y, hyn, hc⟩
      obtain ⟨z, hz, h1, h2, _⟩ := hchild c hin
      have hyn' : ∀ {w : Str}, IsName w → Names (par ++ [x] ++ [w]) := fun hw =>
        names_append.2 ⟨hx, by intro z hz; rw [List.mem_singleton.1 hz]; exact hw⟩
      have : y = z := by
        have := List.append_cancel_left (render_inj (hyn' hyn) (hyn' hz) (Linked.inj L hc h2))
        simpa using this
      subst this
      exact ⟨y, List.mem_map.2 ⟨_, List.mem_map.2 ⟨c, hin, rfl⟩, h1⟩, r, by simp⟩
  have hnot : ¬ ∃ y r, par ++ [name] = par ++ [x] ++ y :: r ∧ render (par ++ [x] ++ [y]) ∈ keys st.byPath := by
    rintro ⟨y, r, h, -⟩
    exact hlong y r h.symm
  constructor
  · rintro ⟨ls, hls, h1, h2⟩
    rcases (hget2 _ _).1 h1 with ⟨h, rfl⟩ | ⟨hne', h⟩
    · have := render_inj hls hnew h
      subst this
      rw [if_neg (fun hh => hnot ((hprefix _ hls).1 hh))] at h2
      refine ⟨par ++ [x], hx, hi, ?_⟩
      unfold renameTo
      rw [if_pos (.inl rfl), h2]
      simp
    · refine ⟨ls, hls, h, ?_⟩
      have hlx : ls ≠ par ++ [x] := fun hh => hne' (by rw [hh])
      unfold renameTo
      rw [h2]
      simp only [hprefix ls hls, hlx, false_or]
  · rintro ⟨ls, hls, h1, h2⟩
    by_cases hlx : ls = par ++ [x]
    · subst hlx
      rw [hi] at h1
      obtain rfl := Option.some.inj h1
      refine ⟨par ++ [name], hnew, (hget2 _ _).2 (.inl ⟨rfl, rfl⟩), ?_⟩
      rw [if_neg (fun hh => hnot ((hprefix _ hnew).1 hh)), h2]
      unfold renameTo
      rw [if_pos (.inl rfl)]
      simp
    · refine ⟨ls, hls, (hget2 _ _).2 (.inr ⟨fun hh => hlx (render_inj hls hx hh), h1⟩), ?_⟩
      unfold renameTo at h2
      rw [h2]
      simp only [hprefix ls hls, hlx, false_or]

end Nxt.Edit
