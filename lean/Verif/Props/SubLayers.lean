import Verif.Lemmas.SubLayers
/-!
# C90–C92: adding and removing layers
-/
namespace Nxt.Props
open Spec SubLayers

/-! ## C90 -/

/-- C90: after removing a layer it is not in the stage; only layers it references, directly or not, are gone
with it; the layers left keep their order, know their places, and lose nothing but references to layers gone. -/
theorem C90_remove (fuel k : Nat) (S S' : Stg) (hn : S.stack.Nodup) (h : removeSub fuel S k = .ok S') :
    k ∉ S'.stack ∧ TakenAway k S S' ∧ Indexed S' := by
  obtain ⟨t, hk⟩ := removeSub_taken fuel k hn h
  exact ⟨hk, ⟨t.stack, t.file, t.real, t.parent, t.refs, t.paths, t.only, t.clean, fun j hj => t.kept j hj (fun e => nomatch e),
    t.keptPaths⟩, removeSub_indexed fuel k hn h⟩

/-- C90: removing ends, also when layers reference each other: more rounds than references are never needed. -/
theorem C90_ends (ids : List Nat) (fuel k : Nat) (S : Stg) (hn : S.stack.Nodup) (hids : ∀ j ∉ ids, (S.lay j).refs = [])
    (hf : (ids.map (fun j => (S.lay j).refs.length)).sum < fuel) : removeSub fuel S k ≠ .running :=
  removeSub_ends ids fuel k hn hids hf

/-- C90: removing raises nothing if all references are to loaded layers. -/
theorem C90_no_exception (fuel k : Nat) (S : Stg) (hn : S.stack.Nodup) (hk : Known S) : removeSub fuel S k ≠ .raised :=
  removeSub_known fuel k hn hk

/-- C90: all layers referenced are removed, if each of them has at most one reference.  In general they are not
(`C90_every_second`). -/
theorem C90_all_partial (fuel k : Nat) (S S' : Stg) (hn : S.stack.Nodup)
    (hc : ∀ m, LayReach S k m → (S.lay m).refs.length ≤ 1) (h : removeSub fuel S k = .ok S') (m : Nat) (hm : LayReach S k m) :
    m ∉ S'.stack :=
  removeSub_chain fuel k hn hc h m hm

/-- C90: as the list of references is changed while it is looped over, only every second layer referenced is
removed with the layer. -/
theorem C90_every_second (fuel k : Nat) (S S' : Stg) (hn : S.stack.Nodup) (ms : List Nat) (hms : ms.Nodup) (hk : k ∉ ms)
    (hr : (S.lay k).refs.map (·.layer) = ms.map some) (hleaf : ∀ m ∈ ms, (S.lay m).refs = [])
    (h : removeSub fuel S k = .ok S') (j : Nat) : j ∈ S'.stack ↔ j ∈ S.stack ∧ j ≠ k ∧ j ∉ everySecond ms := by
  cases fuel with
  | zero => cases h
  | succ fuel =>
    unfold removeSub at h
    obtain ⟨S1, h1, h3⟩ := bind_ok h
    obtain ⟨S2, h2, h4⟩ := bind_ok h3
    rw [Res.ok.injEq] at h4
    have t1 := refLoop_taken (rec := removeSub fuel) (fun S j S' hn hh => removeSub_taken fuel j hn hh) _ _ hn h1
    have := refLoop_star fuel k (fuel + 1) ms hms hk [] (S.lay k).refs hn rfl hr (fun _ h => nomatch h) hleaf h1 j
    rw [← h4, dropLayer_stack, (scrub_spec h2).1, (hn.sublist t1.stack).mem_erase_iff, this]
    constructor
    · rintro ⟨a, b, c⟩; exact ⟨b, a, c⟩
    · rintro ⟨a, b, c⟩; exact ⟨b, a, c⟩

/-- C90 fails: the second layer referenced stays in the stage. -/
theorem C90_second_violation (fuel k : Nat) (S S' : Stg) (hn : S.stack.Nodup) (a b : Nat) (ms : List Nat)
    (hms : (a :: b :: ms).Nodup) (hk : k ∉ a :: b :: ms) (hr : (S.lay k).refs.map (·.layer) = (a :: b :: ms).map some)
    (hleaf : ∀ m ∈ a :: b :: ms, (S.lay m).refs = []) (h : removeSub fuel S k = .ok S') (hb : b ∈ S.stack) :
    LayReach S k b ∧ b ∈ S'.stack := by
  constructor
  · have : some b ∈ (S.lay k).refs.map (·.layer) := by rw [hr]; simp
    obtain ⟨r, hrm, e⟩ := List.mem_map.1 this
    have : r = ⟨r.file, some b⟩ := by cases r; simp only at e; rw [e]
    exact .step .refl r.file (this ▸ hrm)
  · rw [C90_every_second fuel k S S' hn _ hms hk hr hleaf h b]
    refine ⟨hb, fun e => hk (by rw [← e]; simp), ?_⟩
    have hab : b ≠ a := fun e => (List.nodup_cons.1 hms).1 (by rw [e]; simp)
    have hbm : b ∉ ms := (List.nodup_cons.1 (List.nodup_cons.1 hms).2).1
    have hsub : ∀ l : List Nat, ∀ x ∈ everySecond l, x ∈ l := by
      intro l
      fun_induction everySecond l with
      | case1 => exact fun _ h => h
      | case2 x => exact fun _ h => h
      | case3 x y l ih =>
        intro z hz
        rcases List.mem_cons.1 hz with e | hz
        · rw [e]; exact List.mem_cons_self
        · exact List.mem_cons_of_mem _ (List.mem_cons_of_mem _ (ih z hz))
    simp only [everySecond, List.mem_cons, not_or]
    exact ⟨hab, fun hh => hbm (hsub ms b hh)⟩

/-- A top layer with two sub layers, the second of which has one more, for the examples. -/
def exLays : Nat → Lay
  | 0 => ⟨"top".toList, "/d/top".toList, ["a".toList, "b".toList], [⟨"a".toList, some 1⟩, ⟨"b".toList, some 2⟩], 0, none⟩
  | 1 => ⟨"a".toList, "/d/a".toList, [], [], 1, some 0⟩
  | 2 => ⟨"b".toList, "/d/b".toList, ["c".toList], [⟨"c".toList, some 3⟩], 2, some 0⟩
  | 3 => ⟨"c".toList, "/d/c".toList, [], [], 3, some 2⟩
  | _ => ⟨"new".toList, "/d/new".toList, [], [], 0, none⟩

def exStg : Stg := ⟨[0, 1, 2, 3], exLays⟩

/-- The stack, with what is said of each layer. -/
def Res.view : Res Stg → Option (List (Nat × Nat × List Str × List (Option Nat)))
  | .ok S => some (S.stack.map (fun j => (j, (S.lay j).idx, (S.lay j).paths, (S.lay j).refs.map (·.layer))))
  | _ => none

example : exStg.stack.Nodup := by decide +kernel
example : Known exStg := by unfold Known; decide +kernel
/-- removing the layer `b` removes `c` as well -/
example : Res.view (removeSub 9 exStg 2) = some [(0, 0, ["a".toList], [some 1]), (1, 1, [], [])] := by rfl
/-- removing the top layer leaves `b`, with its sub layer -/
example : Res.view (removeSub 9 exStg 0) = some [(2, 0, ["c".toList], [some 3]), (3, 1, [], [])] := by rfl
example : ∀ m, LayReach exStg 2 m → (exStg.lay m).refs.length ≤ 1 := by
  have : ∀ m, LayReach exStg 2 m → m = 2 ∨ m = 3 := by
    intro m h
    induction h with
    | refl => exact .inl rfl
    | step _ f hr ih =>
      rcases ih with rfl | rfl
      · have : _ ∈ [(⟨"c".toList, some 3⟩ : Ref)] := hr
        rw [List.mem_singleton] at this
        simp only [Ref.mk.injEq, Option.some.injEq] at this
        exact .inr this.2
      · exact nomatch hr
  intro m h
  rcases this m h with rfl | rfl <;> decide +kernel

/-- `C90_every_second` with three sub layers, the first and third of which are removed. -/
def exStar : Stg := ⟨[0, 1, 2, 3], fun j => if j = 0 then ⟨"t".toList, "t".toList, ["a".toList, "b".toList, "c".toList],
    [⟨"a".toList, some 1⟩, ⟨"b".toList, some 2⟩, ⟨"c".toList, some 3⟩], 0, none⟩
  else ⟨[(" abc".toList)[j]?.getD ' '], [], [], [], j, some 0⟩⟩

example : (exStar.lay 0).refs.map (·.layer) = [1, 2, 3].map some ∧ ∀ m ∈ [1, 2, 3], (exStar.lay m).refs = [] := by decide +kernel
example : (Res.view (removeSub 9 exStar 0)).map (·.map (·.1)) = some [2] := by rfl

/-- C90 fails for a reference whose layer is not loaded, to the file of the layer removed: `KeyError`, after
layers have been removed. -/
theorem C90_key_error_violation :
    removeSub 9 ⟨[0, 1], fun j => if j = 0 then ⟨"t".toList, "t".toList, ["a".toList], [⟨"a".toList, none⟩], 0, none⟩
      else ⟨"a".toList, "a".toList, [], [], 1, none⟩⟩ 1 = .raised := by rfl

/-! ## C91 -/

theorem newSub_indexed (S : Stg) (k idx : Nat) : ∃ T, newSub S k idx = reindex T ∧
    T.stack = S.stack.take idx ++ k :: S.stack.drop idx := by
  unfold newSub
  have hs : (register S k idx).stack = S.stack.take idx ++ k :: S.stack.drop idx := rfl
  simp only
  split
  · exact ⟨_, rfl, hs⟩
  · refine ⟨_, rfl, ?_⟩
    rw [← hs]
    generalize (register S k idx).stack.drop (idx + 1) = l
    generalize register S k idx = T
    induction l generalizing T with
    | nil => rfl
    | cons x l ih =>
      rw [List.foldl_cons, ih]
      unfold adopt
      simp only
      split
      · rfl
      · split <;> rfl

/-- C91: a new layer is put where it is wanted, all others keep their order, and every layer knows its place. -/
theorem C91_new (S : Stg) (k idx : Nat) (hn : S.stack.Nodup) (hk : k ∉ S.stack) :
    (newSub S k idx).stack = S.stack.take idx ++ k :: S.stack.drop idx ∧ Indexed (newSub S k idx) ∧
      (newSub S k idx).stack.erase k = S.stack := by
  obtain ⟨T, e, hs⟩ := newSub_indexed S k idx
  have hst : (newSub S k idx).stack = S.stack.take idx ++ k :: S.stack.drop idx := by rw [e, reindex_stack, hs]
  have hp : (k :: S.stack).Perm T.stack := by
    rw [hs]
    have := (List.perm_middle (a := k) (l₁ := S.stack.take idx) (l₂ := S.stack.drop idx)).symm
    rw [List.take_append_drop] at this
    exact this
  refine ⟨hst, ?_, ?_⟩
  · rw [e]
    exact reindex_indexed (hp.nodup_iff.1 (List.nodup_cons.2 ⟨hk, hn⟩))
  · rw [hst, List.erase_append_right _ (fun h => hk (List.mem_of_mem_take h)), List.erase_cons_head, List.take_append_drop]

theorem newSub_parent {S : Stg} {k idx p : Nat} (hp : (S.lay k).parent = some p) (hpk : p ≠ k) (j : Nat) :
    ∃ i, (newSub S k idx).lay j = if j = p then { refParent (S.lay k).file k (S.lay p) with idx := i } else { S.lay j with idx := i } := by
  have h1 : (register S k idx).lay k = { S.lay k with idx := idx } := by unfold register; rw [upd_lay, if_pos rfl]
  have h2 : ∀ j, j ≠ k → (register S k idx).lay j = S.lay j := fun j hj => by unfold register; rw [upd_lay, if_neg hj]
  have e : newSub S k idx = reindex (upd (register S k idx) p (refParent (S.lay k).file k)) := by
    unfold newSub
    simp only
    rw [h1]
    simp only [hp]
  rw [e]
  obtain ⟨i, hi⟩ := reindex_lay (upd (register S k idx) p (refParent (S.lay k).file k)) j
  refine ⟨i, ?_⟩
  rw [hi, upd_lay]
  by_cases hj : j = p
  · rw [if_pos hj, if_pos hj, hj, h2 p hpk]
  · rw [if_neg hj, if_neg hj]
    by_cases hjk : j = k
    · rw [hjk, h1]
    · rw [h2 j hjk]

/-- C91: a new layer with a parent is referenced by it, under its file path: the first reference with that path
is to the new layer.  The other references of the parent stay, and no other layer is changed. -/
theorem C91_parent (S : Stg) (k idx p : Nat) (hp : (S.lay k).parent = some p) (hpk : p ≠ k) :
    (S.lay k).file ∈ ((newSub S k idx).lay p).paths ∧
    (∃ a b, ((newSub S k idx).lay p).refs = a ++ ⟨(S.lay k).file, some k⟩ :: b ∧ (∀ r ∈ a, r.file ≠ (S.lay k).file) ∧
      ((S.lay p).refs = a ++ b ∧ a = [] ∧ (∀ r ∈ b, r.file ≠ (S.lay k).file) ∨
        ∃ r, r.file = (S.lay k).file ∧ (S.lay p).refs = a ++ r :: b)) ∧
    ∀ j, j ≠ p → ((newSub S k idx).lay j).refs = (S.lay j).refs ∧ ((newSub S k idx).lay j).paths = (S.lay j).paths ∧
      ((newSub S k idx).lay j).parent = (S.lay j).parent := by
  refine ⟨?_, ?_, fun j hj => ?_⟩
  · obtain ⟨i, e⟩ := newSub_parent (idx := idx) hp hpk p
    rw [e, if_pos rfl]
    simp only [refParent]
    split
    · assumption
    · exact List.mem_cons_self
  · obtain ⟨i, e⟩ := newSub_parent (idx := idx) hp hpk p
    rw [e, if_pos rfl]
    simp only [refParent]
    cases h : assignRef (S.lay k).file k (S.lay p).refs with
    | none =>
      have := assignRef_none.1 h
      exact ⟨[], (S.lay p).refs, rfl, (fun _ h => nomatch h), .inl ⟨rfl, rfl, this⟩⟩
    | some refs =>
      obtain ⟨a, r, b, h1, h2, h3, h4⟩ := assignRef_some h
      exact ⟨a, b, h4, h2, .inr ⟨r, h3, h1⟩⟩
  · obtain ⟨i, e⟩ := newSub_parent (idx := idx) hp hpk j
    rw [e, if_neg hj]
    exact ⟨rfl, rfl, rfl⟩

/-- C91: removing a new layer with a parent gives back the stage as it was, if its file was not referenced. -/
theorem C91_undo (S : Stg) (k idx p fuel : Nat) (hn : S.stack.Nodup) (hi : Indexed S) (hk : k ∉ S.stack)
    (hp : (S.lay k).parent = some p) (hps : p ∈ S.stack) (hkr : (S.lay k).refs = [])
    (hfree : ∀ j ∈ S.stack, (S.lay k).file ∉ (S.lay j).paths ∧ ∀ r ∈ (S.lay j).refs, r.file ≠ (S.lay k).file) :
    ∃ S', removeSub (fuel + 1) (newSub S k idx) k = .ok S' ∧ S'.stack = S.stack ∧ ∀ j, j ≠ k → S'.lay j = S.lay j := by
  have hpk : p ≠ k := fun e => hk (e ▸ hps)
  obtain ⟨hs1, hi1, hs2⟩ := C91_new S k idx hn hk
  have hmem : ∀ j, j ∈ (newSub S k idx).stack ↔ j = k ∨ j ∈ S.stack := by
    intro j
    rw [hs1]
    have := (List.perm_middle (a := k) (l₁ := S.stack.take idx) (l₂ := S.stack.drop idx))
    rw [List.take_append_drop] at this
    rw [this.mem_iff, List.mem_cons]
  have hn1 : (newSub S k idx).stack.Nodup := by
    have := (List.perm_middle (a := k) (l₁ := S.stack.take idx) (l₂ := S.stack.drop idx))
    rw [List.take_append_drop] at this
    rw [hs1, this.nodup_iff]
    exact List.nodup_cons.2 ⟨hk, hn⟩
  have hlay : ∀ j, ∃ i, (newSub S k idx).lay j = if j = p then { S.lay p with idx := i, paths := (S.lay k).file :: (S.lay p).paths, refs := ⟨(S.lay k).file, some k⟩ :: (S.lay p).refs }
      else { S.lay j with idx := i } := by
    intro j
    obtain ⟨i, e⟩ := newSub_parent (idx := idx) hp hpk j
    refine ⟨i, ?_⟩
    rw [e]
    split
    · obtain ⟨q1, q2⟩ := hfree p hps
      simp only [refParent, if_neg q1, assignRef_none.2 q2, Option.getD_none]
    · rfl
  have hkfile : ((newSub S k idx).lay k).file = (S.lay k).file := by
    obtain ⟨i, e⟩ := hlay k
    rw [e, if_neg hpk.symm]
  have hkr1 : ((newSub S k idx).lay k).refs = [] := by
    obtain ⟨i, e⟩ := hlay k
    rw [e, if_neg hpk.symm]
    exact hkr
  have hloop : refLoop (removeSub fuel) k (fuel + 1) 0 (newSub S k idx) = .ok (newSub S k idx) := by
    unfold refLoop
    rw [hkr1]
    rfl
  -- scrubbing restores the data of the layers of the stage
  have hone : ∀ j ∈ S.stack, scrubRefs k (((newSub S k idx).lay j).refs.filter (fun d => d.file = (S.lay k).file))
      ((newSub S k idx).lay j).refs = some (S.lay j).refs ∧ ((newSub S k idx).lay j).paths.erase (S.lay k).file = (S.lay j).paths := by
    intro j hj
    obtain ⟨i, e⟩ := hlay j
    obtain ⟨q1, q2⟩ := hfree j hj
    have hfil : (S.lay j).refs.filter (fun d => decide (d.file = (S.lay k).file)) = [] := by
      rw [List.filter_eq_nil_iff]
      intro r hr hh
      exact q2 r hr (by simpa using hh)
    rw [e]
    by_cases hjp : j = p
    · subst hjp
      rw [if_pos rfl]
      refine ⟨?_, by simp⟩
      simp only [List.filter_cons, decide_true, if_true]
      rw [hfil]
      simp [scrubRefs]
    · rw [if_neg hjp]
      simp only
      rw [hfil]
      exact ⟨rfl, List.erase_of_not_mem q1⟩
  have hscrub : ∀ js : List Nat, ∀ T : Stg, js.Nodup → (∀ j ∈ js, j ≠ k → j ∈ S.stack ∧ T.lay j = (newSub S k idx).lay j) →
      ∃ T', scrub (S.lay k).file k js T = .ok T' := by
    intro js
    induction js with
    | nil => exact fun T _ _ => ⟨T, rfl⟩
    | cons x js ih =>
      intro T hnd h
      obtain ⟨hx, hnd⟩ := List.nodup_cons.1 hnd
      unfold scrub scrubOne
      by_cases hxk : x = k
      · rw [if_pos hxk]
        exact ih T hnd (fun j hj hjk => h j (List.mem_cons_of_mem _ hj) hjk)
      · rw [if_neg hxk]
        obtain ⟨a, b⟩ := h x List.mem_cons_self hxk
        rw [b, (hone x a).1]
        refine ih _ hnd (fun j hj hjk => ?_)
        obtain ⟨a', b'⟩ := h j (List.mem_cons_of_mem _ hj) hjk
        refine ⟨a', ?_⟩
        rw [upd_lay, if_neg (fun e => hx (by rw [← e]; exact hj)), b']
  obtain ⟨T', hT⟩ := hscrub (newSub S k idx).stack (newSub S k idx) hn1 (fun j hj hjk =>
    ⟨((hmem j).1 hj).resolve_left hjk, rfl⟩)
  have hTs : T'.stack = (newSub S k idx).stack := (scrub_spec hT).1
  refine ⟨dropLayer T' k, ?_, by rw [dropLayer_stack, hTs, hs2], fun j hjk => ?_⟩
  · unfold removeSub
    rw [hloop]
    simp only [Res.bind, hkfile, hT]
  · have hT0 : ∃ i, T'.lay j = { S.lay j with idx := i } := by
      by_cases hj : j ∈ S.stack
      · obtain ⟨refs, a, b⟩ := scrub_lay hn1 hT j ((hmem j).2 (.inr hj)) hjk
        rw [(hone j hj).1, Option.some.injEq] at a
        obtain ⟨i, e⟩ := hlay j
        refine ⟨i, ?_⟩
        rw [b, (hone j hj).2, ← a]
        rw [e]
        split
        · next h => rw [h]
        · rfl
      · have hjp : j ≠ p := fun e => hj (e ▸ hps)
        rw [(scrub_spec hT).2.2.2 j (.inl (fun hh => hj (((hmem j).1 hh).resolve_left hjk)))]
        obtain ⟨i, e⟩ := hlay j
        rw [if_neg hjp] at e
        exact ⟨i, e⟩
    obtain ⟨i, e⟩ := hT0
    have hst : (dropLayer T' k).stack = S.stack := by rw [dropLayer_stack, hTs, hs2]
    obtain ⟨i', e'⟩ := reindex_lay { T' with stack := T'.stack.erase k } j
    have e2 : (dropLayer T' k).lay j = { S.lay j with idx := i' } := by
      show (reindex { T' with stack := T'.stack.erase k }).lay j = _
      rw [e']
      show { T'.lay j with idx := i' } = _
      rw [e]
    by_cases hj : j ∈ S.stack
    · obtain ⟨n, hlt, hn'⟩ := List.mem_iff_getElem.1 hj
      have h1 : S.stack[n]? = some j := List.getElem?_eq_some_iff.2 ⟨hlt, hn'⟩
      have hix : Indexed (dropLayer T' k) := reindex_indexed (by rw [hTs, hs2]; exact hn)
      have h2 := hix n j (by rw [hst]; exact h1)
      have h3 := hi n j h1
      rw [e2] at h2 ⊢
      have h4 : i' = (S.lay j).idx := h2.trans h3.symm
      rw [h4]
    · have hjT : j ∉ T'.stack.erase k := by rw [hTs, hs2]; exact hj
      have : (dropLayer T' k).lay j = T'.lay j := reindex_other (S := { T' with stack := T'.stack.erase k }) hjT
      rw [this, (scrub_spec hT).2.2.2 j (.inl (fun hh => hj (((hmem j).1 hh).resolve_left hjk)))]
      obtain ⟨T, eT, hsT⟩ := newSub_indexed S k idx
      have hjp : j ≠ p := fun e => hj (e ▸ hps)
      have h1 : (register S k idx).lay k = { S.lay k with idx := idx } := by unfold register; rw [upd_lay, if_pos rfl]
      have e : newSub S k idx = reindex (upd (register S k idx) p (refParent (S.lay k).file k)) := by
        unfold newSub
        simp only
        rw [h1]
        simp only [hp]
      rw [e, reindex_other, upd_lay, if_neg hjp]
      · unfold register; rw [upd_lay, if_neg hjk]
      · intro hh
        have : j ∈ (newSub S k idx).stack := by rw [e, reindex_stack]; exact hh
        exact hj (((hmem j).1 this).resolve_left hjk)

/-- C91: a new layer put on top of a stage references the old top layer only, if all others are referenced by
layers which are not the lowest. -/
theorem C91_top (S : Stg) (k t : Nat) (rest : List Nat) (hs : S.stack = t :: rest) (hn : S.stack.Nodup) (hk : k ∉ S.stack)
    (hp : (S.lay k).parent = none) (hkr : (S.lay k).refs = []) (hkp : (S.lay k).paths = [])
    (ht : ∀ j ∈ S.stack, (S.lay t).file ∉ (S.lay j).paths)
    (hr : ∀ j ∈ rest, ∃ h ∈ S.stack.dropLast, (S.lay j).file ∈ (S.lay h).paths) :
    ((newSub S k 0).lay k).paths = [(S.lay t).file] ∧ ((newSub S k 0).lay k).refs = [⟨(S.lay t).real, some t⟩] ∧
      ((newSub S k 0).lay t).parent = some k ∧
      ∀ j ∈ rest, ((newSub S k 0).lay j).parent = (S.lay j).parent ∧ ((newSub S k 0).lay j).refs = (S.lay j).refs ∧
        ((newSub S k 0).lay j).paths = (S.lay j).paths := by
  have htk : t ≠ k := fun e => hk (by rw [hs, ← e]; exact List.mem_cons_self)
  have h1 : (register S k 0).lay k = { S.lay k with idx := 0 } := by unfold register; rw [upd_lay, if_pos rfl]
  have h2 : ∀ j, j ≠ k → (register S k 0).lay j = S.lay j := fun j hj => by unfold register; rw [upd_lay, if_neg hj]
  have h3 : (register S k 0).stack = k :: t :: rest := by unfold register; rw [upd_stack, hs]; rfl
  have hup : upTo (k :: t :: rest) 0 = k :: S.stack.dropLast := by rw [hs]; rfl
  -- the state after the old top layer has been adopted
  let T := adopt k 0 (register S k 0) t
  have hT : T = upd (upd (upd (register S k 0) k (fun l => { l with paths := [(S.lay t).file] })) t
      (fun l => { l with parent := some k })) k (fun l => { l with refs := l.refs ++ [⟨(S.lay t).real, some t⟩] }) := by
    show adopt k 0 (register S k 0) t = _
    unfold adopt
    simp only
    rw [h3, hup, h2 t htk, if_neg]
    · have e : (upd (register S k 0) k (fun l => { l with paths := if (S.lay t).file ∈ l.paths then l.paths else l.paths ++ [(S.lay t).file] }))
          = upd (register S k 0) k (fun l => { l with paths := [(S.lay t).file] }) := by
        unfold upd
        congr 1
        funext j
        split
        · next hj => subst hj; rw [h1]; simp only [hkp]; rfl
        · rfl
      rw [e]
      have hrk : ((upd (register S k 0) k (fun l => { l with paths := [(S.lay t).file] })).lay k).refs = [] := by
        rw [upd_lay, if_pos rfl]
        show ((register S k 0).lay k).refs = []
        rw [h1]; exact hkr
      rw [hrk]
      rfl
    · intro hh
      obtain ⟨j, hj, hjf⟩ := List.any_eq_true.1 hh
      have hjf : (S.lay t).file ∈ ((register S k 0).lay j).paths := by simpa using hjf
      rcases List.mem_cons.1 hj with e | hj
      · rw [e, h1] at hjf
        have : (S.lay t).file ∈ (S.lay k).paths := hjf
        rw [hkp] at this
        cases this
      · have hjs : j ∈ S.stack := (List.dropLast_sublist _).subset hj
        rw [h2 j (fun e => hk (e ▸ hjs))] at hjf
        exact ht j hjs hjf
  have hTk : T.lay k = { S.lay k with idx := 0, paths := [(S.lay t).file], refs := [⟨(S.lay t).real, some t⟩] } := by
    rw [hT, upd_lay, if_pos rfl, upd_lay, if_neg htk.symm, upd_lay, if_pos rfl, h1]
    simp only [hkr, List.nil_append]
  have hTt : T.lay t = { S.lay t with parent := some k } := by
    rw [hT, upd_lay, if_neg htk, upd_lay, if_pos rfl, upd_lay, if_neg htk, h2 t htk]
  have hTo : ∀ j, j ≠ k → j ≠ t → T.lay j = S.lay j := fun j hjk hjt => by
    rw [hT, upd_lay, if_neg hjk, upd_lay, if_neg hjt, upd_lay, if_neg hjk, h2 j hjk]
  have hTs : T.stack = k :: t :: rest := by rw [hT]; exact h3
  have hskip : ∀ l : List Nat, (∀ j ∈ l, j ∈ rest) → l.foldl (adopt k 0) T = T := by
    intro l
    induction l with
    | nil => exact fun _ => rfl
    | cons x l ih =>
      intro hl
      rw [List.foldl_cons]
      have hx := hl x List.mem_cons_self
      have hxs : x ∈ S.stack := by rw [hs]; exact List.mem_cons_of_mem _ hx
      have hxk : x ≠ k := fun e => hk (e ▸ hxs)
      have hxt : x ≠ t := fun e => by
        rw [hs] at hn
        exact (List.nodup_cons.1 hn).1 (e ▸ hx)
      have : adopt k 0 T x = T := by
        unfold adopt
        simp only
        rw [if_pos]
        rw [hTs, hup, List.any_eq_true]
        obtain ⟨h, hh, hf⟩ := hr x hx
        refine ⟨h, List.mem_cons_of_mem _ hh, ?_⟩
        have hhs : h ∈ S.stack := (List.dropLast_sublist _).subset hh
        have hhk : h ≠ k := fun e => hk (e ▸ hhs)
        rw [hTo x hxk hxt]
        by_cases hht : h = t
        · subst hht
          rw [hTt]
          simpa using hf
        · rw [hTo h hhk hht]
          simpa using hf
      rw [this]
      exact ih (fun j hj => hl j (List.mem_cons_of_mem _ hj))
  have e : newSub S k 0 = reindex T := by
    unfold newSub
    simp only
    rw [h1]
    simp only [hp]
    rw [h3]
    show reindex ((t :: rest).foldl (adopt k 0) (register S k 0)) = _
    rw [List.foldl_cons]
    show reindex (rest.foldl (adopt k 0) T) = _
    rw [hskip rest (fun _ h => h)]
  rw [e]
  refine ⟨by rw [reindex_paths, hTk], by rw [reindex_refs, hTk], by rw [reindex_parent, hTt], fun j hj => ?_⟩
  have hjs : j ∈ S.stack := by rw [hs]; exact List.mem_cons_of_mem _ hj
  have hjt : j ≠ t := fun e => by
    rw [hs] at hn
    exact (List.nodup_cons.1 hn).1 (e ▸ hj)
  rw [reindex_parent, reindex_refs, reindex_paths, hTo j (fun e => hk (e ▸ hjs)) hjt]
  exact ⟨rfl, rfl, rfl⟩

example : Res.view (.ok (newSub exStg 4 0)) = some [(4, 0, ["top".toList], [some 0]), (0, 1, ["a".toList, "b".toList], [some 1, some 2]),
    (1, 2, [], []), (2, 3, ["c".toList], [some 3]), (3, 4, [], [])] := by rfl

/-- The conditions of `C91_top` hold here. -/
example : exStg.stack = 0 :: [1, 2, 3] ∧ (exStg.lay 4).parent = none ∧ (exStg.lay 4).refs = [] ∧ (exStg.lay 4).paths = [] ∧
    (∀ j ∈ exStg.stack, (exStg.lay 0).file ∉ (exStg.lay j).paths) ∧
    ∀ j ∈ [1, 2, 3], ∃ h ∈ exStg.stack.dropLast, (exStg.lay j).file ∈ (exStg.lay h).paths := by decide +kernel

/-- A new layer below the layer `b`: `C91_parent` and `C91_undo`. -/
def exNewSub : Stg := upd exStg 4 (fun l => { l with parent := some 2 })

example : exNewSub.stack.Nodup ∧ 4 ∉ exNewSub.stack ∧ (exNewSub.lay 4).parent = some 2 ∧ 2 ∈ exNewSub.stack ∧ (exNewSub.lay 4).refs = [] ∧
    ∀ j ∈ exNewSub.stack, (exNewSub.lay 4).file ∉ (exNewSub.lay j).paths ∧ ∀ r ∈ (exNewSub.lay j).refs, r.file ≠ (exNewSub.lay 4).file := by
  decide +kernel
example : Res.view (.ok (newSub exNewSub 4 3)) = some [(0, 0, ["a".toList, "b".toList], [some 1, some 2]), (1, 1, [], []),
    (2, 2, ["new".toList, "c".toList], [some 4, some 3]), (4, 3, [], []), (3, 4, [], [])] := by rfl
example : Res.view (removeSub 9 (newSub exNewSub 4 3) 4) = Res.view (.ok exNewSub) := by rfl

/-- C91 fails for a new layer below the top one: the layers above are taken without the last of them
(`[:idx - 1]`), so the new layer gets references to layers the top layer references already. -/
theorem C91_double_violation :
    (Res.view (.ok (newSub exStg 4 1))).map (·.take 2) =
      some [(0, 0, ["a".toList, "b".toList], [some 1, some 2]), (4, 1, ["a".toList, "b".toList, "c".toList], [some 1, some 2, some 3])] ∧
    ((newSub exStg 4 1).lay 1).parent = some 4 := ⟨by rfl, by rfl⟩

/-- C91 fails for the references of such a layer: they are kept under the real path, while the list of paths has
the file path; when the layer below is removed, the reference to it stays. -/
theorem C91_real_path_violation :
    (Res.view (removeSub 9 (newSub exStg 4 0) 0)).map (·.take 1) = some [(4, 0, [], [some 0])] := by rfl

/-! ## C92 -/

/-- C92: adding a reference puts path and reference at one place and keeps the two lists in step. -/
theorem C92_add_reference (l : Lay) (h : Aligned l) (file : Str) (layer : Option Nat) (idx : Option Nat) :
    Aligned (addReference l file layer idx) ∧
    ∃ i, i ≤ l.paths.length ∧ (idx = none → i = l.paths.length) ∧ (∀ j, idx = some j → j ≤ l.paths.length → i = j) ∧
      (addReference l file layer idx).paths = l.paths.insertIdx i file ∧
      (addReference l file layer idx).refs = l.refs.insertIdx i ⟨file, layer⟩ := by
  have hins : ∀ {α : Type} (l : List α) (i : Nat) (a : α), i ≤ l.length → l.take i ++ a :: l.drop i = l.insertIdx i a := by
    intro α l i a hi
    induction l generalizing i with
    | nil => have : i = 0 := by simpa using hi
             subst this; rfl
    | cons x l ih =>
      cases i with
      | zero => rfl
      | succ i => simpa using ih i (by simpa using hi)
  have hcut : ∀ {α : Type} (l : List α) (i : Nat) (a : α), l.take i ++ a :: l.drop i = l.take (min i l.length) ++ a :: l.drop (min i l.length) := by
    intro α l i a
    by_cases hi : i ≤ l.length
    · rw [Nat.min_eq_left hi]
    · rw [Nat.min_eq_right (by omega), List.take_of_length_le (i := i) (by omega), List.drop_of_length_le (i := i) (by omega),
        List.take_length, List.drop_length]
  have hlen : l.refs.length = l.paths.length := by
    have := congrArg List.length h
    simpa using this
  unfold addReference
  refine ⟨?_, min (idx.getD l.paths.length) l.paths.length, Nat.min_le_right _ _, ?_, ?_, ?_, ?_⟩
  · unfold Aligned at *
    simp only [List.map_append, List.map_cons, List.map_take, List.map_drop, h]
  · rintro rfl; simp
  · rintro j rfl hj; simp only [Option.getD_some]; omega
  · simp only
    rw [hcut, hins _ _ _ (Nat.min_le_right _ _)]
  · simp only
    rw [hcut, hlen, hins _ _ _ (by omega)]

/-- C92: a new layer leaves the lists of its parent in step. -/
theorem C92_new (S : Stg) (k idx p : Nat) (hp : (S.lay k).parent = some p) (hpk : p ≠ k) (h : Aligned (S.lay p)) :
    Aligned ((newSub S k idx).lay p) := by
  obtain ⟨i, e⟩ := newSub_parent (idx := idx) hp hpk p
  rw [e, if_pos rfl]
  unfold Aligned at *
  simp only [refParent]
  cases ha : assignRef (S.lay k).file k (S.lay p).refs with
  | none =>
    have := assignRef_none.1 ha
    have hn : (S.lay k).file ∉ (S.lay p).paths := by
      rw [← h]
      intro hh
      obtain ⟨r, hr, e⟩ := List.mem_map.1 hh
      exact this r hr e
    simp only [Option.getD_none, List.map_cons, if_neg hn, h]
  | some refs =>
    have hy : (S.lay k).file ∈ (S.lay p).paths := by
      rw [← h]
      obtain ⟨a, r, b, h1, -, h3, -⟩ := assignRef_some ha
      rw [h1, ← h3]
      simp
    simp only [Option.getD_some, if_pos hy, assignRef_files ha, h]

theorem assignParents_step (S : Stg) (k : Nat) (ks : List Nat) : assignParents S (k :: ks) = assignParents (assignParents S [k]) ks := rfl

theorem assignParents_basic (ks : List Nat) (S : Stg) : (assignParents S ks).stack = S.stack ∧
    ∀ j, ((assignParents S ks).lay j).file = (S.lay j).file ∧ ((assignParents S ks).lay j).parent = (S.lay j).parent ∧
      ((assignParents S ks).lay j).paths = (S.lay j).paths ∧
      ((assignParents S ks).lay j).refs.map (·.file) = (S.lay j).refs.map (·.file) := by
  induction ks generalizing S with
  | nil => exact ⟨rfl, fun j => ⟨rfl, rfl, rfl, rfl⟩⟩
  | cons k ks ih =>
    rw [assignParents_step]
    obtain ⟨h1, h2⟩ := ih (assignParents S [k])
    have h3 : (assignParents S [k]).stack = S.stack ∧ ∀ j, ((assignParents S [k]).lay j).file = (S.lay j).file ∧
        ((assignParents S [k]).lay j).parent = (S.lay j).parent ∧ ((assignParents S [k]).lay j).paths = (S.lay j).paths ∧
        ((assignParents S [k]).lay j).refs.map (·.file) = (S.lay j).refs.map (·.file) := by
      unfold assignParents
      simp only [List.foldl_cons, List.foldl_nil]
      cases hp : (S.lay k).parent with
      | none => exact ⟨rfl, fun j => ⟨rfl, rfl, rfl, rfl⟩⟩
      | some p =>
        refine ⟨rfl, fun j => ?_⟩
        simp only [upd_lay]
        split
        · refine ⟨rfl, rfl, rfl, ?_⟩
          simp only
          cases ha : assignRef (S.lay k).file k (S.lay j).refs with
          | none => rfl
          | some refs => exact assignRef_files ha
        · exact ⟨rfl, rfl, rfl, rfl⟩
    refine ⟨h1.trans h3.1, fun j => ?_⟩
    obtain ⟨a1, a2, a3, a4⟩ := h2 j
    obtain ⟨b1, b2, b3, b4⟩ := h3.2 j
    exact ⟨a1.trans b1, a2.trans b2, a3.trans b3, a4.trans b4⟩

/-- What one step does to the first reference with a file path. -/
theorem assign_find {file : Str} {k : Nat} {refs : List Ref} (hx : ∃ r ∈ refs, r.file = file) (g : Str) :
    (((assignRef file k refs).getD refs).find? (fun r => r.file = g)).map (·.layer) =
      if g = file then some (some k) else (refs.find? (fun r => r.file = g)).map (·.layer) := by
  cases h : assignRef file k refs with
  | none =>
    obtain ⟨r, hr, e⟩ := hx
    exact absurd e (assignRef_none.1 h r hr)
  | some refs' =>
    obtain ⟨a, r, b, h1, h2, h3, h4⟩ := assignRef_some h
    rw [h1, h4]
    simp only [Option.getD_some, List.find?_append, List.find?_cons]
    by_cases hg : g = file
    · subst hg
      have : a.find? (fun r => decide (r.file = g)) = none := by
        rw [List.find?_eq_none]
        intro x hx hh
        exact h2 x hx (by simpa using hh)
      rw [this]
      simp
    · have hg' : file ≠ g := fun e => hg e.symm
      simp [hg, hg', h3]

/-- C92: assigning the layers of a stage keeps all references and makes the first reference to the file of a
layer, in its parent layer, a reference to that layer, if no other layer has that parent and file. -/
theorem C92_assign (S : Stg) (ks : List Nat) (k p : Nat) (hk : k ∈ ks) (hp : (S.lay k).parent = some p)
    (hx : ∃ r ∈ (S.lay p).refs, r.file = (S.lay k).file)
    (hu : ∀ j ∈ ks, (S.lay j).parent = some p → (S.lay j).file = (S.lay k).file → j = k) :
    (((assignParents S ks).lay p).refs.find? (fun r => r.file = (S.lay k).file)).map (·.layer) = some (some k) ∧
    ∀ j, ((assignParents S ks).lay j).refs.map (·.file) = (S.lay j).refs.map (·.file) := by
  refine ⟨?_, fun j => ((assignParents_basic ks S).2 j).2.2.2⟩
  -- one step
  have step : ∀ (T : Stg) (x : Nat), ((assignParents T [x]).lay p).refs =
      if (T.lay x).parent = some p then (assignRef (T.lay x).file x (T.lay p).refs).getD (T.lay p).refs else (T.lay p).refs := by
    intro T x
    unfold assignParents
    simp only [List.foldl_cons, List.foldl_nil]
    cases hq : (T.lay x).parent with
    | none => simp
    | some q =>
      simp only [upd_lay, Option.some.injEq]
      by_cases e : p = q
      · rw [if_pos e, if_pos e.symm]
      · rw [if_neg e, if_neg (fun h => e h.symm)]
  suffices H : ∀ (ks : List Nat) (T : Stg), (∀ j, (T.lay j).file = (S.lay j).file ∧ (T.lay j).parent = (S.lay j).parent) →
      (∃ r ∈ (T.lay p).refs, r.file = (S.lay k).file) →
      (∀ j ∈ ks, (S.lay j).parent = some p → (S.lay j).file = (S.lay k).file → j = k) →
      (k ∈ ks ∨ ((T.lay p).refs.find? (fun r => r.file = (S.lay k).file)).map (·.layer) = some (some k)) →
      (((assignParents T ks).lay p).refs.find? (fun r => r.file = (S.lay k).file)).map (·.layer) = some (some k) from
    H ks S (fun j => ⟨rfl, rfl⟩) hx hu (.inl hk)
  intro ks
  induction ks with
  | nil =>
    intro T _ _ _ h
    exact h.resolve_left (fun h => nomatch h)
  | cons x ks ih =>
    intro T hT hxT huT h
    rw [assignParents_step]
    have hb := assignParents_basic [x] T
    refine ih _ (fun j => ⟨((hb.2 j).1).trans (hT j).1, ((hb.2 j).2.1).trans (hT j).2⟩) ?_ (fun j hj => huT j (List.mem_cons_of_mem _ hj)) ?_
    · obtain ⟨r, hr, e⟩ := hxT
      have : (S.lay k).file ∈ ((assignParents T [x]).lay p).refs.map (·.file) := by
        rw [(hb.2 p).2.2.2, ← e]
        exact List.mem_map_of_mem hr
      obtain ⟨r', hr', e'⟩ := List.mem_map.1 this
      exact ⟨r', hr', e'⟩
    · rw [step]
      by_cases hxp : (T.lay x).parent = some p
      · rw [if_pos hxp]
        by_cases hxk : x = k
        · refine .inr ?_
          subst hxk
          rw [(hT x).1, assign_find hxT, if_pos rfl]
        · have hne : (S.lay k).file ≠ (T.lay x).file := fun e =>
            hxk (huT x List.mem_cons_self ((hT x).2.symm.trans hxp) (by rw [← (hT x).1]; exact e.symm))
          rcases h with h | h
          · exact .inl ((List.mem_cons.1 h).resolve_left (fun e => hxk e.symm))
          · refine .inr ?_
            by_cases hex : ∃ r ∈ (T.lay p).refs, r.file = (T.lay x).file
            · rw [assign_find hex, if_neg hne]; exact h
            · have : assignRef (T.lay x).file x (T.lay p).refs = none :=
                assignRef_none.2 (fun r hr e => hex ⟨r, hr, e⟩)
              rw [this]; exact h
      · rw [if_neg hxp]
        have hxk : x ≠ k := fun e => hxp (by rw [e, (hT k).2, hp])
        rcases h with h | h
        · exact .inl ((List.mem_cons.1 h).resolve_left (fun e => hxk e.symm))
        · exact .inr h

example : Aligned (exLays 0) := rfl
/-- after loading, references have no layers yet -/
example : ((assignParents ⟨[0, 1, 2, 3], fun j => { exLays j with refs := (exLays j).refs.map (fun r => ⟨r.file, none⟩) }⟩ [0, 1, 2, 3]).lay 0).refs =
    (exLays 0).refs := by decide +kernel

end Nxt.Props
