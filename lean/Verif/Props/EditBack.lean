import Verif.Props.EditOrder
/-!
# Property C132: edits of a layer undone by the opposite edit
-/
namespace Nxt.Props
open Dict Edit Spec Path

namespace EditBack

theorem relocate_back {old new l : List Str} (h : ¬ old <+: l → ¬ new <+: l) : relocate new old (relocate old new l) = l := by
  by_cases ho : old <+: l
  · obtain ⟨r, rfl⟩ := ho
    rw [relocate_append, relocate_append]
  · rw [relocate_of_not ho, relocate_of_not (h ho)]

theorem moved_back {old new : List Str} {st st1 st2 : St} (h1 : Moved old new st st1) (h2 : Moved new old st1 st2)
    (hn : Names new) (hu : Unused st new) {ms : List Str} (hms : Names ms) (j : Nat) :
    get? (render ms) st2.byPath = some j ↔ get? (render ms) st.byPath = some j := by
  have free : ∀ l, get? (render l) st.byPath = some j → ¬ new <+: l := by
    rintro l hl ⟨r, rfl⟩
    exact hu r (get?_isSome.1 (by rw [hl]; rfl))
  rw [h2 ms j hms]
  constructor
  · rintro ⟨l, hl, hg, rfl⟩
    obtain ⟨k, hk, hg', rfl⟩ := (h1 l j hl).1 hg
    rw [relocate_back fun _ => free k hg']
    exact hg'
  · intro hg
    exact ⟨relocate old new ms, names_relocate hn hms, (h1 _ j (names_relocate hn hms)).2 ⟨ms, hms, hg, rfl⟩,
      (relocate_back fun _ => free ms hg).symm⟩

/-- All nodes are at the same paths. -/
theorem same_paths {st st2 : St} (L : Linked st) (L2 : Linked st2)
    (h : ∀ ms j, Names ms → (get? (render ms) st2.byPath = some j ↔ get? (render ms) st.byPath = some j)) :
    (∀ p, get? p st2.byPath = get? p st.byPath) ∧ ∀ j, get? j st2.byNode = get? j st.byNode := by
  have key : ∀ p j, get? p st2.byPath = some j ↔ get? p st.byPath = some j := by
    intro p j
    constructor
    · intro hp
      obtain ⟨ms, hms, rfl⟩ := placed_shape (L2.placed _ _ hp)
      exact (h ms j hms).1 hp
    · intro hp
      obtain ⟨ms, hms, rfl⟩ := placed_shape (L.placed _ _ hp)
      exact (h ms j hms).2 hp
  refine ⟨fun p => Option.ext fun j => key p j, fun j => Option.ext fun p => ?_⟩
  rw [← L2.inv, ← L.inv]; exact key p j

theorem name_split {n m x y : Str} (hn : '/' ∉ n) (hm : '/' ∉ m) (hx : x = [] ∨ ∃ r, x = '/' :: r)
    (hy : y = [] ∨ ∃ r, y = '/' :: r) (h : n ++ x = m ++ y) : n = m ∧ x = y := by
  induction n generalizing m with
  | nil =>
    cases m with
    | nil => exact ⟨rfl, h⟩
    | cons c m =>
      rcases hx with rfl | ⟨r, rfl⟩
      · simp at h
      · exact absurd (by have := (List.cons.inj h).1; rw [← this]; simp) hm
  | cons c n ih =>
    cases m with
    | nil =>
      rcases hy with rfl | ⟨r, rfl⟩
      · simp at h
      · exact absurd (by have := (List.cons.inj h).1; rw [this]; simp) hn
    | cons d m =>
      obtain ⟨h1, h2⟩ := List.cons.inj h
      obtain ⟨h3, h4⟩ := ih (fun h => hn (List.mem_cons_of_mem _ h)) (fun h => hm (List.mem_cons_of_mem _ h)) h2
      exact ⟨by rw [h1, h3], h4⟩

theorem slashed_shape (r : List Str) : slashed r = [] ∨ ∃ t, slashed r = '/' :: t := by
  cases r with
  | nil => exact .inl rfl
  | cons n r => exact .inr ⟨_, rfl⟩

theorem slashed_prefix {a b r : List Str} (ha : Names a) (hb : Names b) (h : slashed a ++ slashed r = slashed b) : a <+: b := by
  induction a generalizing b with
  | nil => exact List.nil_prefix
  | cons n a ih =>
    cases b with
    | nil => simp [slashed] at h
    | cons m b =>
      simp only [slashed, List.cons_append, List.append_assoc, List.cons.injEq, true_and] at h
      obtain ⟨h1, h2⟩ := name_split (ha n List.mem_cons_self).2.1 (hb m List.mem_cons_self).2.1
        (by rw [← slashed_append]; exact slashed_shape _) (slashed_shape _) h
      obtain ⟨t, ht⟩ := ih (fun x hx => ha x (List.mem_cons_of_mem _ hx)) (fun x hx => hb x (List.mem_cons_of_mem _ hx)) h2
      exact ⟨t, by rw [List.cons_append, ht, h1]⟩

/-- What was moved away has left nothing behind. -/
theorem unused_moved {old new : List Str} {st st1 : St} (h : Moved old new st st1) (L1 : Linked st1) (hold : Names old)
    (h0 : old ≠ []) (hnp : ¬ old <+: new) (hnp' : ¬ new <+: old) : Unused st1 old := by
  intro r hr
  obtain ⟨j, hj⟩ := Option.isSome_iff_exists.1 (get?_isSome.2 hr)
  obtain ⟨ms, hms, e⟩ := placed_shape (L1.placed _ _ hj)
  rw [e] at hj
  have hpre : old <+: ms := by
    by_cases hm : ms = []
    · exfalso
      rw [hm, render_ne_nil (by simp [h0]), slashed_append] at e
      cases old with
      | nil => exact h0 rfl
      | cons n o =>
        have hn := (hold n List.mem_cons_self).1
        cases n with
        | nil => exact hn rfl
        | cons c n => simp [slashed, render] at e
    · rw [render_ne_nil (by simp [h0]), render_ne_nil hm, slashed_append] at e
      exact slashed_prefix hold hms e
  obtain ⟨l, hl, hg, rfl⟩ := (h ms j hms).1 hj
  by_cases hol : old <+: l
  · obtain ⟨t, rfl⟩ := hol
    rw [relocate_append] at hpre
    rcases List.prefix_or_prefix_of_prefix hpre (List.prefix_append new t) with h' | h'
    · exact hnp h'
    · exact hnp' h'
  · rw [relocate_of_not hol] at hpre
    exact hol hpre

theorem noGaps_moved {old new : List Str} {st st1 : St} (h : Moved old new st st1) (hold : Names old) (hnew : Names new)
    (hu : Unused st new) (hg : NoGaps st old) : NoGaps st1 new := by
  intro a b hn hk
  obtain ⟨j, hj⟩ := Option.isSome_iff_exists.1 (get?_isSome.2 hk)
  obtain ⟨l, hl, hgl, e⟩ := (h _ j hn).1 hj
  have hab := (names_append.1 hn).2
  have ha := (names_append.1 (names_append.1 hn).1).2
  by_cases hol : old <+: l
  · obtain ⟨t, rfl⟩ := hol
    rw [relocate_append, List.append_assoc] at e
    have ht := List.append_cancel_left e
    subst ht
    have hk' := hg a b (by rw [List.append_assoc]; exact hl) (by rw [List.append_assoc]; exact get?_isSome.1 (by rw [hgl]; rfl))
    obtain ⟨i, hi⟩ := Option.isSome_iff_exists.1 (get?_isSome.2 hk')
    have hna : Names (old ++ a) := names_append.2 ⟨hold, ha⟩
    exact get?_isSome.1 (by rw [(h _ i (names_append.2 ⟨hnew, ha⟩)).2 ⟨_, hna, hi, (relocate_append _ _ _).symm⟩]; rfl)
  · rw [relocate_of_not hol] at e
    exact absurd (get?_isSome.1 (by rw [hgl]; rfl)) (by rw [← e, List.append_assoc]; exact hu _)

theorem moveKey_back {V : Type} {d : Dict Str V} (hd : Ok d) {old new : Str} (hne : old ≠ new) (hn : new ∉ keys d) (q : Str) :
    get? q (moveKey new old (moveKey old new d)) = get? q d := by
  have hn' : get? new d = none := get?_eq_none.2 hn
  unfold moveKey
  cases ho : get? old d with
  | none =>
    simp only [hn']
  | some v =>
    simp only [get?_set, if_pos]
    rw [get?_erase (ok_set (ok_erase hd old) new v), get?_set, get?_erase hd]
    by_cases h1 : q = old
    · rw [if_pos h1, h1, ho]
    · rw [if_neg h1]
      by_cases h2 : q = new
      · rw [if_pos h2, h2, hn']
      · rw [if_neg h2, if_neg h2, if_neg h1]

theorem siblings_apart {par : List Str} {x y : Str} (h : x ≠ y) : ¬ par ++ [x] <+: par ++ [y] := by
  intro hp
  have := (List.prefix_append_right_inj par).1 hp
  obtain ⟨t, ht⟩ := this
  exact h (List.cons.inj ht).1

end EditBack
open EditBack

/-- C132: renaming a node and renaming it back brings every node back to its path, if nothing is missing below it. -/
theorem C132_rename_back_partial (st : St) (K : LayerOk st) (i : Nat) (par : List Str) (x name : Str) (hx : Names (par ++ [x]))
    (hi : get? (render (par ++ [x])) st.byPath = some i) (hn : IsName name) (hu : Unused st (par ++ [name]))
    (hg : NoGaps st (par ++ [x])) :
    ∃ st1 st2, setNodeName st i name = .ok st1 ∧ setNodeName st1 i x = .ok st2 ∧ LayerOk st2 ∧
      (∀ p, get? p st2.byPath = get? p st.byPath) ∧ (∀ j, get? j st2.byNode = get? j st.byNode) ∧
      (Ok st.positions → render (par ++ [name]) ∉ keys st.positions → ∀ p, get? p st2.positions = get? p st.positions) := by
  have hnew : Names (par ++ [name]) := names_append.2 ⟨(names_append.1 hx).1, by
    intro z hz; rw [List.mem_singleton.1 hz]; exact hn⟩
  have hne : x ≠ name := by
    rintro rfl
    exact hu [] (by rw [List.append_nil]; exact get?_isSome.1 (by rw [hi]; rfl))
  obtain ⟨st1, a1, K1, m1⟩ := C68_rename_subtree_partial st K i par x name hx hi hn hu hg
  obtain ⟨st1', a1', -, -, -, pos1⟩ := C68_rename st K i par x name hx hi hn hu
  obtain rfl : st1 = st1' := by rw [a1] at a1'; exact Res.ok.inj a1'
  have hi1 : get? (render (par ++ [name])) st1.byPath = some i :=
    (m1 _ i hnew).2 ⟨_, hx, hi, by have := relocate_append (par ++ [x]) (par ++ [name]) []; simpa using this.symm⟩
  have hu1 := unused_moved m1 K1.toLinked hx (by simp) (siblings_apart hne) (siblings_apart (Ne.symm hne))
  have hxn : IsName x := hx x (by simp)
  obtain ⟨st2, a2, K2, m2⟩ := C68_rename_subtree_partial st1 K1 i par name x hnew hi1 hxn hu1 (noGaps_moved m1 hx hnew hu hg)
  obtain ⟨st2', a2', -, -, -, pos2⟩ := C68_rename st1 K1 i par name x hnew hi1 hxn hu1
  obtain rfl : st2 = st2' := by rw [a2] at a2'; exact Res.ok.inj a2'
  obtain ⟨s1, s2⟩ := same_paths K.toLinked K2.toLinked fun ms j hms => moved_back m1 m2 hnew hu hms j
  refine ⟨st1, st2, a1, a2, K2, s1, s2, fun hok hfree p => ?_⟩
  rw [pos2, pos1]
  exact moveKey_back hok (fun e => hne (by
    have := List.append_cancel_left (render_inj hx hnew e)
    exact (List.cons.inj this).1)) hfree p

/-- C132: and every child order is as before, but for children of the node which its child order left out: they are listed
now.  The new name was not listed. -/
theorem C132_rename_order (st : St) (K : LayerOk st) (i p : Nat) (par : List Str) (x name : Str) (hx : Names (par ++ [x]))
    (hi : get? (render (par ++ [x])) st.byPath = some i) (hn : IsName name) (hu : Unused st (par ++ [name]))
    (hg : NoGaps st (par ++ [x])) (hp : get? (render par) st.byPath = some p) (hfree : name ∉ (st.obj p).order) :
    ∃ st1 st2 added, setNodeName st i name = .ok st1 ∧ setNodeName st1 i x = .ok st2 ∧
      (∀ j, j ≠ i → (st2.obj j).order = (st.obj j).order) ∧ (st2.obj i).order = (st.obj i).order ++ added ∧
      ∀ y, y ∈ added ↔ IsName y ∧ y ∉ (st.obj i).order ∧ render (par ++ [x] ++ [y]) ∈ keys st.byPath := by
  have hnew : Names (par ++ [name]) := names_append.2 ⟨(names_append.1 hx).1, by
    intro z hz; rw [List.mem_singleton.1 hz]; exact hn⟩
  have hne : x ≠ name := by
    rintro rfl
    exact hu [] (by rw [List.append_nil]; exact get?_isSome.1 (by rw [hi]; rfl))
  obtain ⟨st1, a1, K1, m1⟩ := C68_rename_subtree_partial st K i par x name hx hi hn hu hg
  have hi1 : get? (render (par ++ [name])) st1.byPath = some i :=
    (m1 _ i hnew).2 ⟨_, hx, hi, by have := relocate_append (par ++ [x]) (par ++ [name]) []; simpa using this.symm⟩
  have hpn : Names par := (names_append.1 hx).1
  have hp1 : get? (render par) st1.byPath = some p :=
    (m1 _ p hpn).2 ⟨par, hpn, hp, (relocate_of_not (by
      intro h; have := h.length_le; simp at this; omega)).symm⟩
  have hu1 := unused_moved m1 K1.toLinked hx (by simp) (siblings_apart hne) (siblings_apart (Ne.symm hne))
  have hxn : IsName x := hx x (by simp)
  obtain ⟨st1', add1, b1, o1, o2, o3, o4, o5⟩ := C68_order st K i p par x name hx hi hn hu hp
  obtain rfl : st1 = st1' := by rw [a1] at b1; exact Res.ok.inj b1
  obtain ⟨st2, add2, b2, q1, q2, q3, q4, q5⟩ := C68_order st1 K1 i p par name x hnew hi1 hxn hu1 hp1
  have hadd2 : add2 = [] := by
    rw [List.eq_nil_iff_forall_not_mem]
    intro y hy
    obtain ⟨y1, y2, y3⟩ := (q4 y).1 hy
    obtain ⟨j, hj⟩ := Option.isSome_iff_exists.1 (get?_isSome.2 y3)
    have hy' : Names (par ++ [name] ++ [y]) := names_append.2 ⟨hnew, by intro z hz; rw [List.mem_singleton.1 hz]; exact y1⟩
    obtain ⟨l, hl, hgl, e⟩ := (m1 _ j hy').1 hj
    by_cases hol : par ++ [x] <+: l
    · obtain ⟨t, rfl⟩ := hol
      rw [relocate_append] at e
      have := List.append_cancel_left e
      subst this
      rw [o2] at y2
      refine y2 (List.mem_append_right _ ((o4 y).2 ⟨y1, fun h => y2 (List.mem_append_left _ h), ?_⟩))
      exact get?_isSome.1 (by rw [hgl]; rfl)
    · rw [relocate_of_not hol] at e
      rw [← e] at hgl
      exact hu [y] (get?_isSome.1 (by rw [hgl]; rfl))
  refine ⟨st1, st2, add1, a1, b2, fun j hj => ?_, by rw [q2, hadd2, List.append_nil, o2], o4⟩
  by_cases hjp : j = p
  · subst hjp
    rw [q1, o1, List.map_map]
    conv => rhs; rw [← List.map_id (st.obj j).order]
    refine List.map_congr_left fun z hz => ?_
    simp only [Function.comp]
    by_cases hzx : z = x
    · rw [if_pos hzx, if_pos rfl, hzx]; rfl
    · rw [if_neg hzx, if_neg (fun h : z = name => hfree (h ▸ hz))]; rfl
  · rw [q5 j hj hjp, o5 j hj hjp]

/-- C132: moving a node below another and moving it back brings every node back to its path. -/
theorem C132_parent_back (st : St) (K : LayerOk st) (i : Nat) (op par : List Str) (n x : Str) (ho : Names (op ++ [n]))
    (hi : get? (render (op ++ [n])) st.byPath = some i) (hp : ¬ op ++ [n] <+: par) (hn : Names (par ++ [x]))
    (hu : Unused st (par ++ [x])) :
    ∃ st1 st2, parentNodes st [(i, x)] (render par) = .ok st1 ∧ parentNodes st1 [(i, n)] (render op) = .ok st2 ∧ LayerOk st2 ∧
      (∀ p, get? p st2.byPath = get? p st.byPath) ∧ (∀ j, get? j st2.byNode = get? j st.byNode) ∧
      st2.positions = st.positions := by
  have hnew0 : ¬ par ++ [x] <+: op ++ [n] := by
    rintro ⟨t, ht⟩
    refine hu t ?_
    rw [ht]; exact get?_isSome.1 (by rw [hi]; rfl)
  have hold0 : ¬ op ++ [n] <+: par ++ [x] := by
    rintro ⟨t, ht⟩
    rcases List.eq_nil_or_concat t with rfl | ⟨t', z, rfl⟩
    · exact hnew0 ⟨[], by simp at ht ⊢; exact ⟨ht.1.symm, ht.2.symm⟩⟩
    · rw [List.concat_eq_append, ← List.append_assoc] at ht
      exact hp ⟨t', (List.append_inj' ht rfl).1⟩
  have single : ∀ (st : St) (K : LayerOk st) (i : Nat) (old par : List Str) (x : Str), Names old → get? (render old) st.byPath = some i →
      ¬ old <+: par → Names (par ++ [x]) → Unused st (par ++ [x]) → old ≠ [] →
      ∃ st', parentNodes st [(i, x)] (render par) = .ok st' ∧ LayerOk st' ∧ Moved old (par ++ [x]) st st' ∧
        st'.positions = st.positions := by
    intro st K i old par x h1 h2 h3 h4 h5 h6
    obtain ⟨st', a, b, c⟩ := C67_parent_one st K i old par x h1 h2 h3 h4 h5 h6
    obtain ⟨st'', a', -, -, -, d⟩ := C67_parent st K [(i, x)] par (by simp) ⟨(names_append.1 h4).1,
      by simpa using h4 x (by simp), by simp, by simp, by simpa using h5, by simpa using ⟨old, h1, h6, h2, h3⟩⟩
    rw [a] at a'
    cases a'
    exact ⟨st', a, b, c, d⟩
  obtain ⟨st1, a1, K1, m1, p1⟩ := single st K i _ par x ho hi hp hn hu (by simp)
  have hi1 : get? (render (par ++ [x])) st1.byPath = some i :=
    (m1 _ i hn).2 ⟨_, ho, hi, by have := relocate_append (op ++ [n]) (par ++ [x]) []; simpa using this.symm⟩
  have hu1 := unused_moved m1 K1.toLinked ho (by simp) hold0 hnew0
  have hp1 : ¬ par ++ [x] <+: op := fun h => hnew0 (h.trans (List.prefix_append _ _))
  obtain ⟨st2, a2, K2, m2, p2⟩ := single st1 K1 i _ op n hn hi1 hp1 ho hu1 (by simp)
  obtain ⟨s1, s2⟩ := same_paths K.toLinked K2.toLinked fun ms j hms => moved_back m1 m2 hn hu hms j
  exact ⟨st1, st2, a1, a2, K2, s1, s2, p2.trans p1⟩

namespace EditBack

theorem parentNodes_single {st st' : St} {i : Nat} {x par : Str} (h : parentNodes st [(i, x)] par = .ok st') :
    ∃ s, parentOne st i par x = some s ∧ st' = refresh s := by
  unfold parentNodes at h
  rw [if_neg (by simp)] at h
  cases hs : parentOne st i par x with
  | none =>
    simp only [parentLoop, hs] at h
    cases h
  | some s =>
    simp only [parentLoop, hs] at h
    split at h
    · cases h; exact ⟨s, rfl, rfl⟩
    · cases h

end EditBack

/-- C132, what does not hold: moved away from a node and back, a node comes last in its child order. -/
theorem C132_parent_order_violation (st : St) (K : LayerOk st) (i p q : Nat) (op par : List Str) (n x : Str)
    (ho : Names (op ++ [n])) (h0 : op ≠ []) (hi : get? (render (op ++ [n])) st.byPath = some i)
    (hpo : get? (render op) st.byPath = some p) (hq : get? (render par) st.byPath = some q) (hp : ¬ op ++ [n] <+: par)
    (hn : Names (par ++ [x])) (hu : Unused st (par ++ [x])) (h0' : par ≠ []) (hpar : par ≠ op) (hone : (st.obj p).order.Nodup) :
    ∃ st1 st2, parentNodes st [(i, x)] (render par) = .ok st1 ∧ parentNodes st1 [(i, n)] (render op) = .ok st2 ∧
      (st2.obj p).order = (st.obj p).order.erase n ++ [n] := by
  obtain ⟨st1, st2, a1, a2, K2, -⟩ := C132_parent_back st K i op par n x ho hi hp hn hu
  obtain ⟨st1', b1, K1, m1⟩ := C67_parent_one st K i _ par x ho hi hp hn hu (by simp)
  obtain rfl : st1 = st1' := by rw [a1] at b1; exact Res.ok.inj b1
  obtain ⟨s1, e1, rfl⟩ := parentNodes_single a1
  obtain ⟨s2, e2, rfl⟩ := parentNodes_single a2
  have hpn : Names par := (names_append.1 hn).1
  have hon : Names op := (names_append.1 ho).1
  have hpp : get? (render par) st.byPath ≠ some p := fun h => hpar (render_inj hpn hon (Linked.inj K.toLinked h hpo))
  have hi1 : get? (render (par ++ [x])) (refresh s1).byPath = some i :=
    (m1 _ i hn).2 ⟨_, ho, hi, by have := relocate_append (op ++ [n]) (par ++ [x]) []; simpa using this.symm⟩
  have hpo1 : get? (render op) (refresh s1).byPath = some p :=
    (m1 _ p hon).2 ⟨op, hon, hpo, (relocate_of_not (by
      intro h; have := h.length_le; simp at this; omega)).symm⟩
  obtain ⟨s1', f1, o1⟩ := C67_order st K i p op par n x ho h0 hi hpo
  rw [e1] at f1
  obtain rfl := Option.some.inj f1
  have ho1 : (s1.obj p).order = (st.obj p).order.erase n := by
    rw [o1, if_neg (fun h => hpp h.1), if_pos rfl]
  have hq1 : get? (render par) (refresh s1).byPath = some q :=
    (m1 _ q hpn).2 ⟨par, hpn, hq, (relocate_of_not hp).symm⟩
  obtain ⟨s2', f2, o2⟩ := C67_order (refresh s1) K1 i q par op x n hn h0' hi1 hq1
  rw [e2] at f2
  obtain rfl := Option.some.inj f2
  refine ⟨_, _, a1, a2, ?_⟩
  have hpq : p ≠ q := by
    rintro rfl
    exact hpp hq
  have e3 : ((refresh s1).obj p).order = (st.obj p).order.erase n := ho1
  show (s2.obj p).order = _
  have hout : n ∉ (st.obj p).order.erase n := fun h => (hone.mem_erase_iff.1 h).1 rfl
  rw [o2, if_neg hpq, e3, if_pos ⟨hpo1, hout⟩]

/-- C132: a node added and deleted again leaves all paths as they were. -/
theorem C132_add_delete (st : St) (K : LayerOk st) (i : Nat) (par : List Str) (x : Str) (order : List Str) (rm : Bool)
    (hn : Names (par ++ [x])) (hfree : render (par ++ [x]) ∉ keys st.byPath) (hi : i ∉ keys st.byNode) :
    ∃ st', deleteNode [] false rm (addNode st i (render par) x order) i = .ok st' ∧ LayerOk st' ∧
      (∀ p, get? p st'.byPath = get? p st.byPath) ∧ ∀ j, get? j st'.byNode = get? j st.byNode := by
  obtain ⟨K1, h1⟩ := C55_add st K i par x order hn hfree hi
  obtain ⟨st', a, K2, h2, -⟩ := C69_delete_one _ K1 i [] rm (render (par ++ [x])) (by rw [h1, if_pos rfl])
  refine ⟨st', a, K2, same_paths K.toLinked K2.toLinked fun ms j _ => ?_⟩
  rw [h2, h1]
  by_cases e : render ms = render (par ++ [x])
  · rw [if_pos e, e, get?_eq_none.2 hfree]
  · rw [if_neg e, if_neg e]

/-- C132: a node deleted and added again at its place. -/
theorem C132_delete_add (st : St) (K : LayerOk st) (i : Nat) (desc : List Str) (par : List Str) (x : Str) (order : List Str)
    (rm : Bool) (hn : Names (par ++ [x])) (hi : get? (render (par ++ [x])) st.byPath = some i) :
    ∃ st', deleteNode desc false rm st i = .ok st' ∧ LayerOk (addNode st' i (render par) x order) ∧
      (∀ p, get? p (addNode st' i (render par) x order).byPath = get? p st.byPath) ∧
      ∀ j, get? j (addNode st' i (render par) x order).byNode = get? j st.byNode := by
  obtain ⟨st', a, K1, h1, -⟩ := C69_delete_one st K i desc rm _ hi
  have hfree : render (par ++ [x]) ∉ keys st'.byPath := get?_eq_none.1 (by rw [h1, if_pos rfl])
  have hib : i ∉ keys st'.byNode := get?_eq_none.1 (by
    cases hj : get? i st'.byNode with
    | none => rfl
    | some p =>
      exfalso
      have hp := (K1.inv p i).2 hj
      rw [h1] at hp
      split at hp
      · cases hp
      · rename_i hne
        exact hne (Linked.inj K.toLinked hp hi))
  obtain ⟨K2, h2⟩ := C55_add st' K1 i par x order hn hfree hib
  refine ⟨st', a, K2, same_paths K.toLinked K2.toLinked fun ms j _ => ?_⟩
  rw [h2, h1]
  by_cases e : render ms = render (par ++ [x])
  · rw [if_pos e, e, hi]
  · rw [if_neg e, if_neg e]

-- the hypotheses are met: `/a/b`, with a child, goes below `/p` and back
example : ∃ st1 st2, parentNodes editSample [(1, "b1".toList)] (render ["p".toList]) = .ok st1 ∧
    parentNodes st1 [(1, "b".toList)] (render ["a".toList]) = .ok st2 ∧ LayerOk st2 ∧
    (∀ p, get? p st2.byPath = get? p editSample.byPath) ∧ (∀ j, get? j st2.byNode = get? j editSample.byNode) ∧
    st2.positions = editSample.positions :=
  C132_parent_back editSample editSample_ok 1 ["a".toList] ["p".toList] "b".toList "b1".toList (by decide +kernel)
    (by decide +kernel) (by decide +kernel) (by decide +kernel) (unused_of (by decide) (by decide +kernel))

/-- A layer: `/a` with two children in order, and `/p`. -/
def backSample : St := construct [("/a".toList, ["b".toList, "d".toList]), ("/a/b".toList, []), ("/a/d".toList, []), ("/p".toList, [])]

theorem backSample_ok : LayerOk backSample := by
  refine (C55_construct _ (by decide +kernel) ?_).1
  intro p hp
  simp only [keys, List.map_cons, List.map_nil, List.mem_cons, List.not_mem_nil, or_false] at hp
  rcases hp with rfl | rfl | rfl | rfl
  · exact ⟨["a".toList], by decide +kernel⟩
  · exact ⟨["a".toList, "b".toList], by decide +kernel⟩
  · exact ⟨["a".toList, "d".toList], by decide +kernel⟩
  · exact ⟨["p".toList], by decide +kernel⟩

-- there `b`, which ran before `d`, runs after it once it was moved away and back
example : ∃ st1 st2, parentNodes backSample [(1, "b".toList)] (render ["p".toList]) = .ok st1 ∧
    parentNodes st1 [(1, "b".toList)] (render ["a".toList]) = .ok st2 ∧
    (st2.obj 0).order = (backSample.obj 0).order.erase "b".toList ++ ["b".toList] :=
  C132_parent_order_violation backSample backSample_ok 1 0 3 ["a".toList] ["p".toList] "b".toList "b".toList (by decide +kernel)
    (by decide) (by decide +kernel) (by decide +kernel) (by decide +kernel) (by decide +kernel) (by decide +kernel)
    (unused_of (by decide) (by decide +kernel)) (by decide) (by decide) (by decide +kernel)

example : (backSample.obj 0).order.erase "b".toList ++ ["b".toList] = ["d".toList, "b".toList] := by decide +kernel

-- while a rename and the rename back leave the order alone
example : (match setNodeName backSample 1 "z".toList with
    | .ok st => match setNodeName st 1 "b".toList with
      | .ok st' => ((st.obj 0).order, (st'.obj 0).order, keys st'.byPath)
      | .raised _ => ([], [], [])
    | .raised _ => ([], [], [])) =
  (["z".toList, "d".toList], ["b".toList, "d".toList], ["/a".toList, "/a/d".toList, "/p".toList, "/a/b".toList]) := by decide +kernel

-- a rename in this layer meets the hypotheses
example : ∃ st1 st2, setNodeName backSample 1 "z".toList = .ok st1 ∧ setNodeName st1 1 "b".toList = .ok st2 ∧ LayerOk st2 ∧
    (∀ p, get? p st2.byPath = get? p backSample.byPath) ∧ (∀ j, get? j st2.byNode = get? j backSample.byNode) ∧
    (Ok backSample.positions → render (["a".toList] ++ ["z".toList]) ∉ keys backSample.positions →
      ∀ p, get? p st2.positions = get? p backSample.positions) := by
  refine C132_rename_back_partial backSample backSample_ok 1 ["a".toList] "b".toList "z".toList (by decide +kernel)
    (by decide +kernel) (by decide +kernel) (unused_of (by decide) (by decide +kernel)) ?_
  intro a b hab hk
  have hks : ∀ k ∈ keys backSample.byPath, k = render ["a".toList] ∨ k = render ["a".toList, "b".toList] ∨
      k = render ["a".toList, "d".toList] ∨ k = render ["p".toList] := by decide +kernel
  have hinj : ∀ ns, Names ns → render (["a".toList] ++ ["b".toList] ++ a ++ b) = render ns →
      ["a".toList] ++ ["b".toList] ++ a ++ b = ns := fun ns h1 h2 => render_inj hab h1 h2
  rcases hks _ hk with h | h | h | h
  · have := hinj _ (by decide +kernel) h
    simp at this
  · have := hinj _ (by decide +kernel) h
    simp at this
    rw [this.1]
    decide +kernel
  · have := hinj _ (by decide +kernel) h
    simp at this
  · have := hinj _ (by decide +kernel) h
    simp at this

-- adding and deleting
example : ∃ st', deleteNode [] false true (addNode backSample 9 (render ["a".toList]) "n".toList []) 9 = .ok st' ∧ LayerOk st' ∧
    (∀ p, get? p st'.byPath = get? p backSample.byPath) ∧ ∀ j, get? j st'.byNode = get? j backSample.byNode :=
  C132_add_delete backSample backSample_ok 9 ["a".toList] "n".toList [] true (by decide +kernel) (by decide +kernel) (by decide +kernel)

end Nxt.Props
