import Verif.Spec.SubLayers
/-!
# Lemmas on adding and removing layers
-/
namespace Nxt.SubLayers
open Spec

theorem upd_lay {S : Stg} {k : Nat} {f : Lay → Lay} {j : Nat} :
    (upd S k f).lay j = if j = k then f (S.lay j) else S.lay j := rfl

theorem upd_stack {S : Stg} {k : Nat} {f : Lay → Lay} : (upd S k f).stack = S.stack := rfl

/-! ### Indices -/

theorem reindex_fold (l : List (Nat × Nat)) (S : Stg) :
    (l.foldl (fun S p => upd S p.1 (fun l => { l with idx := p.2 })) S).stack = S.stack ∧
    ∀ j, ∃ i, (l.foldl (fun S p => upd S p.1 (fun l => { l with idx := p.2 })) S).lay j = { S.lay j with idx := i } ∧
      ((∀ p ∈ l, p.1 ≠ j) → i = (S.lay j).idx) ∧
      ((∃ p ∈ l, p.1 = j) → (j, i) ∈ l) := by
  induction l generalizing S with
  | nil => exact ⟨rfl, fun j => ⟨(S.lay j).idx, rfl, fun _ => rfl, fun ⟨p, h, _⟩ => nomatch h⟩⟩
  | cons p l ih =>
    rw [List.foldl_cons]
    obtain ⟨h1, h2⟩ := ih (upd S p.1 (fun l => { l with idx := p.2 }))
    refine ⟨h1, fun j => ?_⟩
    obtain ⟨i, e, hn, hi⟩ := h2 j
    refine ⟨i, ?_, ?_, ?_⟩
    · rw [e, upd_lay]; split <;> rfl
    · intro h
      rw [hn (fun q hq => h q (List.mem_cons_of_mem _ hq)), upd_lay, if_neg (fun e => h p List.mem_cons_self e.symm)]
    · intro _
      by_cases hj : ∃ q ∈ l, q.1 = j
      · exact List.mem_cons_of_mem _ (hi hj)
      · have hl : ∀ q ∈ l, q.1 ≠ j := fun q hq e => hj ⟨q, hq, e⟩
        have := hn hl
        rename_i hex
        obtain ⟨q, hq, hqj⟩ := hex
        rcases List.mem_cons.1 hq with rfl | hq
        · rw [upd_lay, if_pos hqj.symm] at this
          rw [this, ← hqj]
          exact List.mem_cons_self
        · exact absurd hqj (hl q hq)

theorem reindex_stack (S : Stg) : (reindex S).stack = S.stack := (reindex_fold _ S).1

theorem reindex_lay (S : Stg) (j : Nat) : ∃ i, (reindex S).lay j = { S.lay j with idx := i } := by
  obtain ⟨i, h, -⟩ := (reindex_fold S.stack.zipIdx S).2 j
  exact ⟨i, h⟩

theorem reindex_file (S : Stg) (j : Nat) : ((reindex S).lay j).file = (S.lay j).file := by
  obtain ⟨i, h⟩ := reindex_lay S j; rw [h]
theorem reindex_real (S : Stg) (j : Nat) : ((reindex S).lay j).real = (S.lay j).real := by
  obtain ⟨i, h⟩ := reindex_lay S j; rw [h]
theorem reindex_parent (S : Stg) (j : Nat) : ((reindex S).lay j).parent = (S.lay j).parent := by
  obtain ⟨i, h⟩ := reindex_lay S j; rw [h]
theorem reindex_refs (S : Stg) (j : Nat) : ((reindex S).lay j).refs = (S.lay j).refs := by
  obtain ⟨i, h⟩ := reindex_lay S j; rw [h]
theorem reindex_paths (S : Stg) (j : Nat) : ((reindex S).lay j).paths = (S.lay j).paths := by
  obtain ⟨i, h⟩ := reindex_lay S j; rw [h]

theorem reindex_indexed {S : Stg} (hn : S.stack.Nodup) : Indexed (reindex S) := by
  intro i k h
  rw [reindex_stack] at h
  obtain ⟨x, e, -, hx⟩ := (reindex_fold S.stack.zipIdx S).2 k
  have hk : (k, i) ∈ S.stack.zipIdx := by
    rw [List.mem_zipIdx_iff_getElem?]; simpa using h
  have := hx ⟨(k, i), hk, rfl⟩
  rw [List.mem_zipIdx_iff_getElem?] at this
  have h' : S.stack[x]? = some k := by simpa using this
  unfold reindex
  rw [e]
  obtain ⟨hi, -⟩ := List.getElem?_eq_some_iff.1 h
  exact ((List.getElem?_inj hi hn).1 (h.trans h'.symm)).symm

/-- A layer which is not in the stage keeps its index. -/
theorem reindex_other {S : Stg} {j : Nat} (h : j ∉ S.stack) : (reindex S).lay j = S.lay j := by
  obtain ⟨x, e, hx, -⟩ := (reindex_fold S.stack.zipIdx S).2 j
  have : x = (S.lay j).idx := by
    apply hx
    rintro ⟨a, b⟩ hp rfl
    exact h ((List.mem_zipIdx_iff_getElem?.1 hp) |> fun hh => List.mem_of_getElem? hh)
  unfold reindex
  rw [e, this]

/-! ### Scrubbing -/

theorem scrubRefs_spec {k : Nat} {rm refs refs' : List Ref} (h : scrubRefs k rm refs = some refs') :
    refs'.Sublist refs ∧ ∀ r, refs'.count r = refs.count r - (if r.layer = some k then rm.count r else 0) := by
  induction rm generalizing refs with
  | nil =>
    simp only [scrubRefs, Option.some.injEq] at h
    subst h
    exact ⟨List.Sublist.refl _, fun r => by simp⟩
  | cons rd rm ih =>
    unfold scrubRefs at h
    cases hl : rd.layer with
    | none => simp [hl] at h
    | some j =>
      simp only [hl] at h
      obtain ⟨h1, h2⟩ := ih h
      by_cases hj : j = k
      · rw [if_pos hj] at h1 h2
        refine ⟨h1.trans List.erase_sublist, fun r => ?_⟩
        rw [h2 r, List.count_erase, List.count_cons]
        by_cases hr : rd = r
        · subst hr; simp [hl, hj]; omega
        · have : (r == rd) = false := by simpa using fun e => hr e.symm
          have h3 : (rd == r) = false := by simpa using hr
          simp [this, h3]
      · rw [if_neg hj] at h1 h2
        refine ⟨h1, fun r => ?_⟩
        rw [h2 r, List.count_cons]
        by_cases hr : rd = r
        · subst hr; simp [hl, hj]
        · have h3 : (rd == r) = false := by simpa using hr
          simp [h3]

theorem scrubRefs_some {k : Nat} {rm refs : List Ref} (h : ∀ r ∈ rm, r.layer ≠ none) : ∃ refs', scrubRefs k rm refs = some refs' := by
  induction rm generalizing refs with
  | nil => exact ⟨refs, rfl⟩
  | cons rd rm ih =>
    unfold scrubRefs
    cases hl : rd.layer with
    | none => exact absurd hl (h rd List.mem_cons_self)
    | some j => exact ih (fun r hr => h r (List.mem_cons_of_mem _ hr))

/-- The references of one layer after scrubbing. -/
theorem scrubRefs_filter {k : Nat} {file : Str} {refs refs' : List Ref}
    (h : scrubRefs k (refs.filter (fun d => d.file = file)) refs = some refs') :
    refs'.Sublist refs ∧ ⟨file, some k⟩ ∉ refs' ∧ ∀ r ∈ refs, r ∉ refs' → r = ⟨file, some k⟩ := by
  obtain ⟨h1, h2⟩ := scrubRefs_spec h
  refine ⟨h1, ?_, ?_⟩
  · rw [← List.count_eq_zero, h2]
    rw [List.count_filter (by simp)]
    simp
  · intro r hr hr'
    rw [← List.count_eq_zero, h2] at hr'
    have hc : 0 < refs.count r := List.count_pos_iff.2 hr
    by_cases hl : r.layer = some k
    · rw [if_pos hl] at hr'
      have : 0 < (refs.filter (fun d => d.file = file)).count r := by omega
      have := List.count_pos_iff.1 this
      have hf : r.file = file := by simpa using (List.mem_filter.1 this).2
      cases r
      simp only at hl hf
      rw [hl, hf]
    · rw [if_neg hl] at hr'; omega

/-- What scrubbing the layers `js` does. -/
theorem scrub_spec {file : Str} {k : Nat} {js : List Nat} {S S' : Stg} (h : scrub file k js S = .ok S') :
    S'.stack = S.stack ∧ (∀ j, (S'.lay j).file = (S.lay j).file ∧ (S'.lay j).real = (S.lay j).real ∧
      (S'.lay j).parent = (S.lay j).parent ∧ (S'.lay j).refs.Sublist (S.lay j).refs ∧
      (S'.lay j).paths.Sublist (S.lay j).paths ∧
      (∀ r ∈ (S.lay j).refs, r ∉ (S'.lay j).refs → r = ⟨file, some k⟩) ∧
      (∀ p ∈ (S.lay j).paths, p ∉ (S'.lay j).paths → p = file)) ∧
      (∀ j ∈ js, j ≠ k → ⟨file, some k⟩ ∉ (S'.lay j).refs ∧ ((S.lay j).paths.Nodup → file ∉ (S'.lay j).paths)) ∧
      (∀ j, j ∉ js ∨ j = k → S'.lay j = S.lay j) := by
  induction js generalizing S with
  | nil =>
    simp only [scrub, Res.ok.injEq] at h
    subst h
    exact ⟨rfl, fun j => ⟨rfl, rfl, rfl, List.Sublist.refl _, List.Sublist.refl _, fun r h h' => absurd h h', fun p h h' => absurd h h'⟩,
      (fun j h => nomatch h), fun _ _ => rfl⟩
  | cons x js ih =>
    unfold scrub at h
    cases h1 : scrubOne file k S x with
    | running => rw [h1] at h; cases h
    | raised => rw [h1] at h; cases h
    | ok S1 =>
      rw [h1] at h
      obtain ⟨a1, a2, a3, a4⟩ := ih h
      unfold scrubOne at h1
      by_cases hx : x = k
      · rw [if_pos hx, Res.ok.injEq] at h1
        subst h1
        refine ⟨a1, a2, fun j hj hjk => ?_, fun j hj => ?_⟩
        · rcases List.mem_cons.1 hj with rfl | hj
          · exact absurd hx hjk
          · exact a3 j hj hjk
        · apply a4
          rcases hj with hj | hj
          · exact .inl (fun h => hj (List.mem_cons_of_mem _ h))
          · exact .inr hj
      · rw [if_neg hx] at h1
        cases hs : scrubRefs k ((S.lay x).refs.filter (fun d => d.file = file)) (S.lay x).refs with
        | none => rw [hs] at h1; cases h1
        | some refs =>
          rw [hs] at h1
          simp only [Res.ok.injEq] at h1
          obtain ⟨b1, b2, b3⟩ := scrubRefs_filter hs
          have hxl : S1.lay x = { S.lay x with paths := (S.lay x).paths.erase file, refs := refs } := by
            rw [← h1, upd_lay, if_pos rfl]
          have hol : ∀ j, j ≠ x → S1.lay j = S.lay j := fun j hj => by rw [← h1, upd_lay, if_neg hj]
          have hst : S1.stack = S.stack := by rw [← h1]; rfl
          refine ⟨a1.trans hst, fun j => ?_, fun j hj hjk => ?_, fun j hj => ?_⟩
          · obtain ⟨c1, c2, c3, c4, c5, c6, c7⟩ := a2 j
            by_cases hjx : j = x
            · subst hjx
              rw [hxl] at c1 c2 c3 c4 c5 c6 c7
              refine ⟨c1, c2, c3, c4.trans b1, c5.trans List.erase_sublist, fun r hr hr' => ?_, fun p hp hp' => ?_⟩
              · by_cases hh : r ∈ refs
                · exact c6 r hh hr'
                · exact b3 r hr hh
              · by_cases hpf : p = file
                · exact hpf
                · exact c7 p ((List.mem_erase_of_ne hpf).2 hp) hp'
            · rw [hol j hjx] at c1 c2 c3 c4 c5 c6 c7
              exact ⟨c1, c2, c3, c4, c5, c6, c7⟩
          · by_cases hjx : j = x
            · subst hjx
              obtain ⟨c1, c2, c3, c4, c5, c6, c7⟩ := a2 j
              rw [hxl] at c4 c5
              refine ⟨fun h => b2 (c4.subset h), fun hn h => ?_⟩
              exact hn.not_mem_erase (c5.subset h)
            · rcases List.mem_cons.1 hj with rfl | hj
              · exact absurd rfl hjx
              · have := a3 j hj hjk
                rw [hol j hjx] at this
                exact this
          · have hjx : j ≠ x := by
              rcases hj with hj | hj
              · intro e; exact hj (e ▸ List.mem_cons_self)
              · rw [hj]; exact fun e => hx e.symm
            rw [a4 j (hj.imp (fun h hh => h (List.mem_cons_of_mem _ hh)) id), hol j hjx]

theorem scrub_ok {file : Str} {k : Nat} {js : List Nat} {S : Stg} (h : ∀ j ∈ js, ∀ r ∈ (S.lay j).refs, r.layer ≠ none) :
    ∃ S', scrub file k js S = .ok S' := by
  induction js generalizing S with
  | nil => exact ⟨S, rfl⟩
  | cons x js ih =>
    have : ∃ S1, scrubOne file k S x = .ok S1 ∧ ∀ j, (S1.lay j).refs.Sublist (S.lay j).refs := by
      unfold scrubOne
      by_cases hx : x = k
      · rw [if_pos hx]; exact ⟨S, rfl, fun j => List.Sublist.refl _⟩
      · rw [if_neg hx]
        obtain ⟨refs, hs⟩ := scrubRefs_some (k := k) (rm := (S.lay x).refs.filter (fun d => d.file = file)) (refs := (S.lay x).refs)
          (fun r hr => h x List.mem_cons_self r (List.mem_filter.1 hr).1)
        rw [hs]
        refine ⟨_, rfl, fun j => ?_⟩
        rw [upd_lay]
        by_cases hj : j = x
        · subst hj
          rw [if_pos rfl]
          exact (scrubRefs_spec hs).1
        · rw [if_neg hj]; exact List.Sublist.refl _
    obtain ⟨S1, e1, hsub⟩ := this
    unfold scrub
    rw [e1]
    exact ih (fun j hj r hr => h j (List.mem_cons_of_mem _ hj) r ((hsub j).subset hr))

theorem scrub_not_running {file : Str} {k : Nat} {js : List Nat} {S : Stg} : scrub file k js S ≠ .running := by
  induction js generalizing S with
  | nil => intro h; cases h
  | cons x js ih =>
    unfold scrub
    cases h1 : scrubOne file k S x with
    | running =>
      unfold scrubOne at h1
      split at h1
      · cases h1
      · split at h1 <;> cases h1
    | raised => intro h; cases h
    | ok S1 => exact ih

/-! ### Removing -/

theorem _root_.Nxt.Spec.LayReach.mono {S S' : Stg} {k m : Nat} (h : LayReach S' k m)
    (hs : ∀ j, (S'.lay j).refs.Sublist (S.lay j).refs) : LayReach S k m := by
  induction h with
  | refl => exact .refl
  | step _ f hr ih => exact .step ih f ((hs _).subset hr)

theorem _root_.Nxt.Spec.LayReach.trans {S : Stg} {k m j : Nat} (h : LayReach S k m) (h' : LayReach S m j) : LayReach S k j := by
  induction h' with
  | refl => exact h
  | step _ f hr ih => exact .step ih f hr

/-- `TakenAway`, where the references of the layers in `x` may also be taken. -/
structure Taken (x : Option Nat) (k : Nat) (S S' : Stg) : Prop where
  stack : S'.stack.Sublist S.stack
  file : ∀ j, (S'.lay j).file = (S.lay j).file
  real : ∀ j, (S'.lay j).real = (S.lay j).real
  parent : ∀ j, (S'.lay j).parent = (S.lay j).parent
  refs : ∀ j, (S'.lay j).refs.Sublist (S.lay j).refs
  paths : ∀ j, (S'.lay j).paths.Sublist (S.lay j).paths
  only : ∀ m ∈ S.stack, m ∉ S'.stack → LayReach S k m
  clean : ∀ m ∈ S.stack, m ∉ S'.stack → ∀ j ∈ S'.stack, ⟨(S.lay m).file, some m⟩ ∉ (S'.lay j).refs ∧
    ((S.lay j).paths.Nodup → (S.lay m).file ∉ (S'.lay j).paths)
  kept : ∀ j ∈ S'.stack, some j ≠ x → ∀ r ∈ (S.lay j).refs, r ∉ (S'.lay j).refs →
    ∃ m, m ∉ S'.stack ∧ LayReach S k m ∧ r = ⟨(S.lay m).file, some m⟩
  keptPaths : ∀ j ∈ S'.stack, ∀ p ∈ (S.lay j).paths, p ∉ (S'.lay j).paths →
    ∃ m, m ∉ S'.stack ∧ LayReach S k m ∧ p = (S.lay m).file

theorem Taken.refl (x : Option Nat) (k : Nat) (S : Stg) : Taken x k S S where
  stack := List.Sublist.refl _
  file _ := rfl
  real _ := rfl
  parent _ := rfl
  refs _ := List.Sublist.refl _
  paths _ := List.Sublist.refl _
  only m h h' := absurd h h'
  clean m h h' := absurd h h'
  kept j _ _ r h h' := absurd h h'
  keptPaths j _ p h h' := absurd h h'

theorem Taken.trans {x : Option Nat} {k k' : Nat} {S S1 S2 : Stg} (h : Taken x k S S1) (h' : Taken x k' S1 S2)
    (hk : LayReach S k k') : Taken x k S S2 where
  stack := h'.stack.trans h.stack
  file j := (h'.file j).trans (h.file j)
  real j := (h'.real j).trans (h.real j)
  parent j := (h'.parent j).trans (h.parent j)
  refs j := (h'.refs j).trans (h.refs j)
  paths j := (h'.paths j).trans (h.paths j)
  only m hm hm' := by
    by_cases h1 : m ∈ S1.stack
    · exact hk.trans ((h'.only m h1 hm').mono h.refs)
    · exact h.only m hm h1
  clean m hm hm' j hj := by
    by_cases h1 : m ∈ S1.stack
    · obtain ⟨a, b⟩ := h'.clean m h1 hm' j hj
      rw [h.file] at a b
      exact ⟨a, fun hn => b (hn.sublist (h.paths j))⟩
    · obtain ⟨a, b⟩ := h.clean m hm h1 j (h'.stack.subset hj)
      exact ⟨fun hh => a ((h'.refs j).subset hh), fun hn hh => b hn ((h'.paths j).subset hh)⟩
  kept j hj hx r hr hr' := by
    by_cases h1 : r ∈ (S1.lay j).refs
    · obtain ⟨m, a, b, c⟩ := h'.kept j hj hx r h1 hr'
      exact ⟨m, a, hk.trans (b.mono h.refs), by rw [c, h.file]⟩
    · obtain ⟨m, a, b, c⟩ := h.kept j (h'.stack.subset hj) hx r hr h1
      exact ⟨m, fun hh => a (h'.stack.subset hh), b, c⟩
  keptPaths j hj r hr hr' := by
    by_cases h1 : r ∈ (S1.lay j).paths
    · obtain ⟨m, a, b, c⟩ := h'.keptPaths j hj r h1 hr'
      exact ⟨m, a, hk.trans (b.mono h.refs), by rw [c, h.file]⟩
    · obtain ⟨m, a, b, c⟩ := h.keptPaths j (h'.stack.subset hj) r hr h1
      exact ⟨m, fun hh => a (h'.stack.subset hh), b, c⟩

theorem Taken.weaken {k : Nat} {S S' : Stg} (h : Taken none k S S') (x : Option Nat) : Taken x k S S' :=
  { h with kept := fun j hj _ => h.kept j hj (fun e => nomatch e) }

theorem taken_erase (S : Stg) (k : Nat) (r : Ref) :
    Taken (some k) k S (upd S k (fun l => { l with refs := l.refs.erase r })) where
  stack := List.Sublist.refl _
  file j := by rw [upd_lay]; split <;> rfl
  real j := by rw [upd_lay]; split <;> rfl
  parent j := by rw [upd_lay]; split <;> rfl
  refs j := by
    rw [upd_lay]; split
    · exact List.erase_sublist
    · exact List.Sublist.refl _
  paths j := by rw [upd_lay]; split <;> exact List.Sublist.refl _
  only m h h' := absurd h h'
  clean m h h' := absurd h h'
  kept j _ hx r h h' := by
    rw [upd_lay, if_neg (fun e => hx (by rw [e]))] at h'
    exact absurd h h'
  keptPaths j _ p h h' := by
    rw [upd_lay] at h'
    split at h' <;> exact absurd h h'

/-- The loop over the references. -/
theorem refLoop_taken {rec : Stg → Nat → Res Stg} {k : Nat}
    (hrec : ∀ S j S', S.stack.Nodup → rec S j = .ok S' → Taken none j S S' ∧ j ∉ S'.stack) (fuel i : Nat) {S S' : Stg}
    (hn : S.stack.Nodup) (h : refLoop rec k fuel i S = .ok S') : Taken (some k) k S S' := by
  induction fuel generalizing i S with
  | zero => cases h
  | succ fuel ih =>
    unfold refLoop at h
    cases hr : (S.lay k).refs[i]? with
    | none =>
      rw [hr] at h
      simp only [Res.ok.injEq] at h
      subst h
      exact Taken.refl _ _ _
    | some r =>
      rw [hr] at h
      simp only at h
      have t1 := taken_erase S k r
      cases hl : r.layer with
      | none =>
        rw [hl] at h
        exact t1.trans (ih (i + 1) hn h) .refl
      | some j =>
        rw [hl] at h
        simp only at h
        cases h2 : rec (upd S k (fun l => { l with refs := l.refs.erase r })) j with
        | running => rw [h2] at h; cases h
        | raised => rw [h2] at h; cases h
        | ok S2 =>
          rw [h2] at h
          obtain ⟨t2, -⟩ := hrec (upd S k (fun l => { l with refs := l.refs.erase r })) j S2 hn h2
          have hk : LayReach S k j := by
            have : r = ⟨r.file, some j⟩ := by cases r; simp only at hl; rw [hl]
            exact .step .refl r.file (this ▸ List.mem_of_getElem? hr)
          exact (t1.trans (t2.weaken _) hk).trans (ih (i + 1) (hn.sublist t2.stack) h) .refl

theorem bind_ok {α β : Type} {r : Res α} {f : α → Res β} {b : β} (h : r.bind f = .ok b) : ∃ a, r = .ok a ∧ f a = .ok b := by
  cases r with
  | running => cases h
  | raised => cases h
  | ok a => exact ⟨a, rfl, h⟩

theorem dropLayer_stack (S : Stg) (k : Nat) : (dropLayer S k).stack = S.stack.erase k := by
  unfold dropLayer; rw [reindex_stack]

theorem dropLayer_refs (S : Stg) (k j : Nat) : ((dropLayer S k).lay j).refs = (S.lay j).refs := by
  unfold dropLayer; rw [reindex_refs]

/-- Removing a layer. -/
theorem removeSub_taken (fuel : Nat) (k : Nat) {S S' : Stg} (hn : S.stack.Nodup) (h : removeSub fuel S k = .ok S') :
    Taken none k S S' ∧ k ∉ S'.stack := by
  induction fuel generalizing S S' k with
  | zero => cases h
  | succ fuel ih =>
    unfold removeSub at h
    obtain ⟨S1, h1, h⟩ := bind_ok h
    obtain ⟨S2, h2, h⟩ := bind_ok h
    rw [Res.ok.injEq] at h
    have t1 := refLoop_taken (rec := removeSub fuel) (fun S j S' hn hh => ih j hn hh) _ _ hn h1
    have hn1 := hn.sublist t1.stack
    obtain ⟨s1, s2, s3, -⟩ := scrub_spec h2
    have hst : S'.stack = S1.stack.erase k := by rw [← h, dropLayer_stack, s1]
    have hk : k ∉ S'.stack := by rw [hst]; exact hn1.not_mem_erase
    have hmem : ∀ j, j ∈ S'.stack ↔ j ≠ k ∧ j ∈ S1.stack := fun j => by rw [hst]; exact hn1.mem_erase_iff
    have e1 : ∀ j, (S'.lay j).file = (S2.lay j).file := fun j => by rw [← h]; unfold dropLayer; rw [reindex_file]
    have e2 : ∀ j, (S'.lay j).real = (S2.lay j).real := fun j => by rw [← h]; unfold dropLayer; rw [reindex_real]
    have e3 : ∀ j, (S'.lay j).parent = (S2.lay j).parent := fun j => by rw [← h]; unfold dropLayer; rw [reindex_parent]
    have e4 : ∀ j, (S'.lay j).refs = (S2.lay j).refs := fun j => by rw [← h]; unfold dropLayer; rw [reindex_refs]
    have e5 : ∀ j, (S'.lay j).paths = (S2.lay j).paths := fun j => by rw [← h]; unfold dropLayer; rw [reindex_paths]
    have hR : ∀ j, (S'.lay j).refs.Sublist (S1.lay j).refs := fun j => by rw [e4]; exact (s2 j).2.2.2.1
    have hP : ∀ j, (S'.lay j).paths.Sublist (S1.lay j).paths := fun j => by rw [e5]; exact (s2 j).2.2.2.2.1
    refine ⟨?_, hk⟩
    exact {
      stack := by rw [hst]; exact List.erase_sublist.trans t1.stack
      file := fun j => by rw [e1, (s2 j).1, t1.file]
      real := fun j => by rw [e2, (s2 j).2.1, t1.real]
      parent := fun j => by rw [e3, (s2 j).2.2.1, t1.parent]
      refs := fun j => (hR j).trans (t1.refs j)
      paths := fun j => (hP j).trans (t1.paths j)
      only := fun m hm hm' => by
        by_cases hmk : m = k
        · rw [hmk]; exact .refl
        · exact t1.only m hm (fun hh => hm' ((hmem m).2 ⟨hmk, hh⟩))
      clean := fun m hm hm' j hj => by
        obtain ⟨hjk, hj1⟩ := (hmem j).1 hj
        by_cases hmk : m = k
        · subst hmk
          obtain ⟨a, b⟩ := s3 j hj1 hjk
          rw [e4, e5]
          exact ⟨a, fun hnd => b (hnd.sublist (t1.paths j))⟩
        · obtain ⟨a, b⟩ := t1.clean m hm (fun hh => hm' ((hmem m).2 ⟨hmk, hh⟩)) j hj1
          exact ⟨fun hh => a ((hR j).subset hh), fun hnd hh => b hnd ((hP j).subset hh)⟩
      kept := fun j hj _ r hr hr' => by
        obtain ⟨hjk, hj1⟩ := (hmem j).1 hj
        by_cases hr1 : r ∈ (S1.lay j).refs
        · exact ⟨k, hk, .refl, (s2 j).2.2.2.2.2.1 r hr1 (by rw [← e4]; exact hr')⟩
        · obtain ⟨m, a, b, c⟩ := t1.kept j hj1 (fun e => hjk (Option.some.inj e)) r hr hr1
          exact ⟨m, fun hh => a ((hmem m).1 hh).2, b, c⟩
      keptPaths := fun j hj p hp hp' => by
        obtain ⟨hjk, hj1⟩ := (hmem j).1 hj
        by_cases hp1 : p ∈ (S1.lay j).paths
        · exact ⟨k, hk, .refl, (s2 j).2.2.2.2.2.2 p hp1 (by rw [← e5]; exact hp')⟩
        · obtain ⟨m, a, b, c⟩ := t1.keptPaths j hj1 p hp hp1
          exact ⟨m, fun hh => a ((hmem m).1 hh).2, b, c⟩ }

theorem removeSub_indexed (fuel : Nat) (k : Nat) {S S' : Stg} (hn : S.stack.Nodup) (h : removeSub fuel S k = .ok S') :
    Indexed S' := by
  cases fuel with
  | zero => cases h
  | succ fuel =>
    have hn' := hn.sublist (removeSub_taken _ k hn h).1.stack
    unfold removeSub at h
    obtain ⟨S1, h1, h⟩ := bind_ok h
    obtain ⟨S2, h2, h⟩ := bind_ok h
    rw [Res.ok.injEq] at h
    rw [← h] at hn' ⊢
    rw [dropLayer_stack] at hn'
    exact reindex_indexed hn'

/-! ### Ending -/

/-- The number of references of the layers `ids`. -/
def weight (ids : List Nat) (S : Stg) : Nat := (ids.map (fun j => (S.lay j).refs.length)).sum

theorem weight_mono {ids : List Nat} {S S' : Stg} (h : ∀ j, (S'.lay j).refs.Sublist (S.lay j).refs) : weight ids S' ≤ weight ids S := by
  unfold weight
  induction ids with
  | nil => exact Nat.le_refl _
  | cons x l ih =>
    simp only [List.map_cons, List.sum_cons]
    exact Nat.add_le_add (h x).length_le ih

theorem weight_erase {ids : List Nat} {S : Stg} {k : Nat} {r : Ref} (hk : k ∈ ids) (hr : r ∈ (S.lay k).refs) :
    weight ids (upd S k (fun l => { l with refs := l.refs.erase r })) < weight ids S := by
  induction ids with
  | nil => cases hk
  | cons x l ih =>
    have hsub := (taken_erase S k r).refs
    unfold weight
    simp only [List.map_cons, List.sum_cons]
    by_cases hx : x = k
    · subst hx
      have h1 : ((upd S x (fun l => { l with refs := l.refs.erase r })).lay x).refs.length < (S.lay x).refs.length := by
        rw [upd_lay, if_pos rfl]
        show ((S.lay x).refs.erase r).length < _
        rw [List.length_erase_of_mem hr]
        have := List.length_pos_of_mem hr
        omega
      exact Nat.add_lt_add_of_lt_of_le h1 (weight_mono (ids := l) hsub)
    · have hk' : k ∈ l := by
        rcases List.mem_cons.1 hk with h | h
        · exact absurd h.symm hx
        · exact h
      exact Nat.add_lt_add_of_le_of_lt (hsub x).length_le (ih hk')

theorem refLoop_ends {rec : Stg → Nat → Res Stg} {k : Nat} {ids : List Nat} {f : Nat}
    (hrec : ∀ S j S', S.stack.Nodup → rec S j = .ok S' → Taken none j S S' ∧ j ∉ S'.stack)
    (hend : ∀ S j, S.stack.Nodup → (∀ j ∉ ids, (S.lay j).refs = []) → weight ids S < f → rec S j ≠ .running)
    (fuel i : Nat) {S : Stg} (hn : S.stack.Nodup) (hids : ∀ j ∉ ids, (S.lay j).refs = []) (hw : weight ids S < fuel)
    (hw' : weight ids S ≤ f) : refLoop rec k fuel i S ≠ .running := by
  induction fuel generalizing i S with
  | zero => omega
  | succ fuel ih =>
    unfold refLoop
    cases hr : (S.lay k).refs[i]? with
    | none => intro h; cases h
    | some r =>
      simp only
      have hm : r ∈ (S.lay k).refs := List.mem_of_getElem? hr
      have hk : k ∈ ids := Classical.byContradiction (fun hh => by rw [hids k hh] at hm; cases hm)
      have hlt := weight_erase hk hm
      have t1 := taken_erase S k r
      have hids1 : ∀ j ∉ ids, ((upd S k (fun l => { l with refs := l.refs.erase r })).lay j).refs = [] := fun j hj =>
        List.sublist_nil.1 (hids j hj ▸ t1.refs j)
      cases hl : r.layer with
      | none => exact ih (i + 1) hn hids1 (by omega) (by omega)
      | some j =>
        simp only
        cases h2 : rec (upd S k (fun l => { l with refs := l.refs.erase r })) j with
        | running => exact absurd h2 (hend (upd S k (fun l => { l with refs := l.refs.erase r })) j hn hids1 (by omega))
        | raised => intro h; cases h
        | ok S2 =>
          obtain ⟨t2, -⟩ := hrec (upd S k (fun l => { l with refs := l.refs.erase r })) j S2 hn h2
          have := weight_mono (ids := ids) t2.refs
          exact ih (i + 1) (hn.sublist t2.stack) (fun j hj => List.sublist_nil.1 (hids1 j hj ▸ t2.refs j)) (by omega) (by omega)

theorem removeSub_ends (ids : List Nat) (fuel k : Nat) {S : Stg} (hn : S.stack.Nodup) (hids : ∀ j ∉ ids, (S.lay j).refs = [])
    (hw : weight ids S < fuel) : removeSub fuel S k ≠ .running := by
  induction fuel generalizing S k with
  | zero => omega
  | succ fuel ih =>
    unfold removeSub
    have h1 := refLoop_ends (rec := removeSub fuel) (k := k) (ids := ids) (f := fuel)
      (fun S j S' hn hh => removeSub_taken fuel j hn hh) (fun S j hn hids hw => ih j hn hids hw) (fuel + 1) 0 hn hids hw (by omega)
    cases h : refLoop (removeSub fuel) k (fuel + 1) 0 S with
    | running => exact absurd h h1
    | raised => intro h; cases h
    | ok S1 =>
      simp only [Res.bind]
      cases h2 : scrub (S.lay k).file k S1.stack S1 with
      | running => exact absurd h2 scrub_not_running
      | raised => intro h; cases h
      | ok S2 => intro h; cases h

/-! ### No exception -/

theorem Taken.known {x : Option Nat} {k : Nat} {S S' : Stg} (h : Taken x k S S') (hk : Known S) : Known S' :=
  fun j hj r hr => hk j (h.stack.subset hj) r ((h.refs j).subset hr)

theorem refLoop_known {rec : Stg → Nat → Res Stg} {k : Nat}
    (hrec : ∀ S j S', S.stack.Nodup → rec S j = .ok S' → Taken none j S S' ∧ j ∉ S'.stack)
    (hno : ∀ S j, S.stack.Nodup → Known S → rec S j ≠ .raised) (fuel i : Nat) {S : Stg} (hn : S.stack.Nodup) (hk : Known S) :
    refLoop rec k fuel i S ≠ .raised := by
  induction fuel generalizing i S with
  | zero => intro h; cases h
  | succ fuel ih =>
    unfold refLoop
    cases hr : (S.lay k).refs[i]? with
    | none => intro h; cases h
    | some r =>
      simp only
      have t1 := taken_erase S k r
      cases hl : r.layer with
      | none => exact ih (i + 1) hn (t1.known hk)
      | some j =>
        simp only
        cases h2 : rec (upd S k (fun l => { l with refs := l.refs.erase r })) j with
        | running => intro h; cases h
        | raised => exact absurd h2 (hno (upd S k (fun l => { l with refs := l.refs.erase r })) j hn (t1.known hk))
        | ok S2 =>
          obtain ⟨t2, -⟩ := hrec (upd S k (fun l => { l with refs := l.refs.erase r })) j S2 hn h2
          exact ih (i + 1) (hn.sublist t2.stack) (t2.known (t1.known hk))

theorem removeSub_known (fuel k : Nat) {S : Stg} (hn : S.stack.Nodup) (hk : Known S) : removeSub fuel S k ≠ .raised := by
  induction fuel generalizing S k with
  | zero => intro h; cases h
  | succ fuel ih =>
    unfold removeSub
    have h1 := refLoop_known (rec := removeSub fuel) (k := k) (fun S j S' hn hh => removeSub_taken fuel j hn hh)
      (fun S j hn hk => ih j hn hk) (fuel + 1) 0 hn hk
    cases h : refLoop (removeSub fuel) k (fuel + 1) 0 S with
    | running => intro h; cases h
    | raised => exact absurd h h1
    | ok S1 =>
      simp only [Res.bind]
      have t1 := refLoop_taken (fun S j S' hn hh => removeSub_taken fuel j hn hh) _ _ hn h
      obtain ⟨S2, h2⟩ := scrub_ok (file := (S.lay k).file) (k := k) (js := S1.stack) (S := S1) (t1.known hk)
      rw [h2]
      intro h; cases h

/-! ### Chains -/

theorem reach_chain {S : Stg} {k j m : Nat} {r : Ref} (hr : (S.lay k).refs = [r]) (hj : r.layer = some j) (h : LayReach S k m) :
    m = k ∨ LayReach (upd S k (fun l => { l with refs := l.refs.erase r })) j m := by
  induction h with
  | refl => exact .inl rfl
  | @step a b _ f hab ih =>
    by_cases ha : a = k
    · subst ha
      rw [hr, List.mem_singleton] at hab
      rw [← hab] at hj
      simp only [Option.some.injEq] at hj
      rw [hj]
      exact .inr .refl
    · rcases ih with h | h
      · exact absurd h ha
      · refine .inr (.step h f ?_)
        rw [upd_lay, if_neg ha]
        exact hab

theorem removeSub_chain (fuel k : Nat) {S S' : Stg} (hn : S.stack.Nodup)
    (hc : ∀ m, LayReach S k m → (S.lay m).refs.length ≤ 1) (h : removeSub fuel S k = .ok S') (m : Nat) (hm : LayReach S k m) :
    m ∉ S'.stack := by
  induction fuel generalizing S k S' m with
  | zero => cases h
  | succ fuel ih =>
    have hk := (removeSub_taken _ k hn h).2
    by_cases hmk : m = k
    · rw [hmk]; exact hk
    unfold removeSub at h
    obtain ⟨S1, h1, h⟩ := bind_ok h
    obtain ⟨S2, h2, h⟩ := bind_ok h
    rw [Res.ok.injEq] at h
    have hsub : S'.stack.Sublist S1.stack := by
      rw [← h, dropLayer_stack, (scrub_spec h2).1]; exact List.erase_sublist
    suffices hh : m ∉ S1.stack from fun e => hh (hsub.subset e)
    unfold refLoop at h1
    have hl := hc k .refl
    cases hr : (S.lay k).refs with
    | nil =>
      exfalso
      clear h1 h2 h hsub ih
      induction hm with
      | refl => exact hmk rfl
      | @step a b _ f hab ih =>
        by_cases ha : a = k
        · subst ha; rw [hr] at hab; cases hab
        · exact ih ha
    | cons r rs =>
      have hrs : rs = [] := by rw [hr] at hl; simp only [List.length_cons] at hl; exact List.length_eq_zero_iff.1 (by omega)
      subst hrs
      rw [hr] at h1
      simp only [List.getElem?_cons_zero] at h1
      cases hj : r.layer with
      | none =>
        exfalso
        clear h1 h2 h hsub ih
        induction hm with
        | refl => exact hmk rfl
        | @step a b _ f hab ih =>
          by_cases ha : a = k
          · subst ha; rw [hr, List.mem_singleton] at hab; rw [← hab] at hj; cases hj
          · exact ih ha
      | some j =>
        rw [hj] at h1
        simp only at h1
        obtain ⟨S3, h3, h1⟩ := bind_ok h1
        have t0 := taken_erase S k r
        have hm' : LayReach (upd S k (fun l => { l with refs := l.refs.erase r })) j m := by
          rcases reach_chain hr hj hm with e | e
          · exact absurd e hmk
          · exact e
        have hkj : LayReach S k j := by
          have e : r = ⟨r.file, some j⟩ := by cases r; simp only at hj; rw [hj]
          exact .step .refl r.file (by rw [hr, ← e]; exact List.mem_cons_self)
        have hc' : ∀ m, LayReach (upd S k (fun l => { l with refs := l.refs.erase r })) j m →
            ((upd S k (fun l => { l with refs := l.refs.erase r })).lay m).refs.length ≤ 1 := fun m hm =>
          Nat.le_trans (t0.refs m).length_le (hc m (hkj.trans (hm.mono t0.refs)))
        have h4 := ih (S := upd S k (fun l => { l with refs := l.refs.erase r })) j hn hc' h3 m hm'
        have t3 := (removeSub_taken (S := upd S k (fun l => { l with refs := l.refs.erase r })) fuel j hn h3).1
        have t4 := refLoop_taken (rec := removeSub fuel) (fun S j S' hn hh => removeSub_taken fuel j hn hh) _ _
          (hn.sublist t3.stack) h1
        exact fun e => h4 (t4.stack.subset e)

/-! ### Exact results -/

theorem scrubRefs_keep {k : Nat} {rm refs refs' : List Ref} (h : scrubRefs k rm refs = some refs')
    (hk : ∀ r ∈ rm, r.layer ≠ some k) : refs' = refs := by
  induction rm generalizing refs with
  | nil => simp only [scrubRefs, Option.some.injEq] at h; exact h.symm
  | cons rd rm ih =>
    unfold scrubRefs at h
    cases hl : rd.layer with
    | none => simp [hl] at h
    | some j =>
      simp only [hl] at h
      have : j ≠ k := fun e => hk rd List.mem_cons_self (by rw [hl, e])
      rw [if_neg this] at h
      exact ih h (fun r hr => hk r (List.mem_cons_of_mem _ hr))

/-- The exact data of a scrubbed layer. -/
theorem scrub_lay {file : Str} {k : Nat} {js : List Nat} {S S' : Stg} (hn : js.Nodup) (h : scrub file k js S = .ok S') (j : Nat)
    (hj : j ∈ js) (hjk : j ≠ k) :
    ∃ refs, scrubRefs k ((S.lay j).refs.filter (fun d => d.file = file)) (S.lay j).refs = some refs ∧
      S'.lay j = { S.lay j with paths := (S.lay j).paths.erase file, refs := refs } := by
  induction js generalizing S with
  | nil => cases hj
  | cons x js ih =>
    obtain ⟨hx, hn'⟩ := List.nodup_cons.1 hn
    unfold scrub at h
    obtain ⟨S1, h1, h'⟩ := bind_ok h
    by_cases hjx : j = x
    · subst hjx
      have e := (scrub_spec h').2.2.2 j (.inl hx)
      unfold scrubOne at h1
      rw [if_neg hjk] at h1
      cases hs : scrubRefs k ((S.lay j).refs.filter (fun d => d.file = file)) (S.lay j).refs with
      | none => rw [hs] at h1; cases h1
      | some refs =>
        rw [hs] at h1
        simp only [Res.ok.injEq] at h1
        refine ⟨refs, rfl, ?_⟩
        rw [e, ← h1, upd_lay, if_pos rfl]
    · have hj' : j ∈ js := by
        rcases List.mem_cons.1 hj with e | e
        · exact absurd e hjx
        · exact e
      have e : S1.lay j = S.lay j := by
        unfold scrubOne at h1
        split at h1
        · rw [Res.ok.injEq] at h1; rw [h1]
        · split at h1
          · cases h1
          · rw [Res.ok.injEq] at h1
            rw [← h1, upd_lay, if_neg hjx]
      have := ih hn' h' hj'
      rw [e] at this
      exact this

/-- Removing a layer without references. -/
theorem removeSub_leaf (fuel k : Nat) {S S' : Stg} (hn : S.stack.Nodup) (hk : (S.lay k).refs = []) (h : removeSub fuel S k = .ok S') :
    S'.stack = S.stack.erase k ∧ (∀ j, (∀ r ∈ (S.lay j).refs, r.layer ≠ some k) → (S'.lay j).refs = (S.lay j).refs) := by
  cases fuel with
  | zero => cases h
  | succ fuel =>
    unfold removeSub at h
    obtain ⟨S1, h1, h3⟩ := bind_ok h
    obtain ⟨S2, h2, h4⟩ := bind_ok h3
    rw [Res.ok.injEq] at h4
    have e1 : S1 = S := by
      unfold refLoop at h1
      rw [hk] at h1
      simp only [List.getElem?_nil, Res.ok.injEq] at h1
      exact h1.symm
    subst e1
    refine ⟨by rw [← h4, dropLayer_stack, (scrub_spec h2).1], fun j hj => ?_⟩
    rw [← h4, dropLayer_refs]
    by_cases hm : j ∈ S1.stack ∧ j ≠ k
    · obtain ⟨refs, a, b⟩ := scrub_lay hn h2 j hm.1 hm.2
      rw [b]
      exact scrubRefs_keep a (fun r hr => hj r (List.mem_filter.1 hr).1)
    · rw [(scrub_spec h2).2.2.2 j]
      by_cases hjs : j ∈ S1.stack
      · exact .inr (Classical.byContradiction (fun e => hm ⟨hjs, e⟩))
      · exact .inl hjs

/-- The loop over references to layers without references takes away every second of them. -/
theorem refLoop_star (fuel k : Nat) (n : Nat) (ms : List Nat) (hms : ms.Nodup) (hkm : k ∉ ms) (pre rs : List Ref) {S S' : Stg}
    (hn : S.stack.Nodup) (hr : (S.lay k).refs = pre ++ rs) (hl : rs.map (·.layer) = ms.map some)
    (hpre : ∀ r ∈ pre, ∀ m ∈ ms, r.layer ≠ some m) (hleaf : ∀ m ∈ ms, (S.lay m).refs = [])
    (h : refLoop (removeSub fuel) k n pre.length S = .ok S') (j : Nat) :
    j ∈ S'.stack ↔ j ∈ S.stack ∧ j ∉ everySecond ms := by
  induction n generalizing ms pre rs S with
  | zero => cases h
  | succ n ih =>
    unfold refLoop at h
    rw [hr] at h
    cases rs with
    | nil =>
      have : ms = [] := by simpa using hl.symm
      subst this
      rw [List.append_nil, List.getElem?_eq_none (Nat.le_refl _)] at h
      simp only [Res.ok.injEq] at h
      subst h
      simp [everySecond]
    | cons r rs =>
      cases ms with
      | nil => simp at hl
      | cons m ms =>
        simp only [List.map_cons, List.cons.injEq] at hl
        obtain ⟨hrm, hl⟩ := hl
        obtain ⟨hm1, hms'⟩ := List.nodup_cons.1 hms
        rw [List.getElem?_append_right (Nat.le_refl _), Nat.sub_self, List.getElem?_cons_zero] at h
        simp only [hrm] at h
        obtain ⟨S2, h2, h⟩ := bind_ok h
        have hrpre : r ∉ pre := fun hh => hpre r hh m List.mem_cons_self hrm
        have hrefs1 : ((upd S k (fun l => { l with refs := l.refs.erase r })).lay k).refs = pre ++ rs := by
          rw [upd_lay, if_pos rfl]
          show (S.lay k).refs.erase r = _
          rw [hr, List.erase_append_right _ hrpre, List.erase_cons_head]
        have hlay1 : ∀ j, j ≠ k → (upd S k (fun l => { l with refs := l.refs.erase r })).lay j = S.lay j := fun j hj => by
          rw [upd_lay, if_neg hj]
        have hmk : m ≠ k := fun e => hkm (e ▸ List.mem_cons_self)
        obtain ⟨s2, k2⟩ := removeSub_leaf (S := upd S k (fun l => { l with refs := l.refs.erase r })) fuel m hn
          (by rw [hlay1 m hmk]; exact hleaf m List.mem_cons_self) h2
        have s2 : S2.stack = S.stack.erase m := s2
        have hr2 : (S2.lay k).refs = pre ++ rs := by
          rw [k2 k, hrefs1]
          rw [hrefs1]
          intro x hx e
          rcases List.mem_append.1 hx with hx | hx
          · exact hpre x hx m List.mem_cons_self e
          · have : x.layer ∈ ms.map some := hl ▸ List.mem_map_of_mem hx
            rw [e] at this
            obtain ⟨y, hy, e⟩ := List.mem_map.1 this
            rw [Option.some.injEq] at e
            exact hm1 (e ▸ hy)
        have hleaf2 : ∀ x ∈ ms, (S2.lay x).refs = [] := fun x hx => by
          have hxk : x ≠ k := fun e => hkm (e ▸ List.mem_cons_of_mem _ hx)
          have hx0 : (S.lay x).refs = [] := hleaf x (List.mem_cons_of_mem _ hx)
          rw [k2 x, hlay1 x hxk, hx0]
          rw [hlay1 x hxk, hx0]
          intro r hr; cases hr
        have hn2 : S2.stack.Nodup := by rw [s2]; exact hn.sublist List.erase_sublist
        have hmem2 : j ∈ S2.stack ↔ j ≠ m ∧ j ∈ S.stack := by rw [s2]; exact hn.mem_erase_iff
        cases rs with
        | nil =>
          have : ms = [] := by simpa using hl.symm
          subst this
          cases n with
          | zero => cases h
          | succ n =>
            unfold refLoop at h
            rw [hr2, List.append_nil, List.getElem?_eq_none (by omega)] at h
            simp only [Res.ok.injEq] at h
            subst h
            rw [hmem2]
            simp only [everySecond, List.mem_singleton]
            exact And.comm
        | cons r' rs =>
          cases ms with
          | nil => simp at hl
          | cons m' ms =>
            simp only [List.map_cons, List.cons.injEq] at hl
            obtain ⟨hrm', hl⟩ := hl
            obtain ⟨hm1', hms''⟩ := List.nodup_cons.1 hms'
            have hlen : pre.length + 1 = (pre ++ [r']).length := by simp
            rw [hlen] at h
            have := ih ms hms'' (fun hh => hkm (List.mem_cons_of_mem _ (List.mem_cons_of_mem _ hh))) (pre ++ [r']) rs hn2
              (by rw [hr2, List.append_assoc]; rfl) hl (fun x hx y hy => by
                rcases List.mem_append.1 hx with hx | hx
                · exact hpre x hx y (List.mem_cons_of_mem _ (List.mem_cons_of_mem _ hy))
                · rw [List.mem_singleton.1 hx, hrm']
                  intro e
                  rw [Option.some.injEq] at e
                  exact hm1' (e ▸ hy)) (fun x hx => hleaf2 x (List.mem_cons_of_mem _ hx)) h
            rw [this, hmem2]
            simp only [everySecond, List.mem_cons, not_or]
            constructor
            · rintro ⟨⟨a, b⟩, c⟩; exact ⟨b, a, c⟩
            · rintro ⟨b, a, c⟩; exact ⟨⟨a, b⟩, c⟩

/-! ### Adding -/

theorem assignRef_some {file : Str} {k : Nat} {refs refs' : List Ref} (h : assignRef file k refs = some refs') :
    ∃ a r b, refs = a ++ r :: b ∧ (∀ x ∈ a, x.file ≠ file) ∧ r.file = file ∧ refs' = a ++ ⟨file, some k⟩ :: b := by
  induction refs generalizing refs' with
  | nil => cases h
  | cons x l ih =>
    unfold assignRef at h
    by_cases hx : x.file = file
    · rw [if_pos hx, Option.some.injEq] at h
      exact ⟨[], x, l, rfl, (fun _ h => nomatch h), hx, by rw [← h, ← hx]; rfl⟩
    · rw [if_neg hx] at h
      obtain ⟨l', e, rfl⟩ := Option.map_eq_some_iff.1 h
      obtain ⟨a, r, b, h1, h2, h3, h4⟩ := ih e
      refine ⟨x :: a, r, b, by rw [h1]; rfl, fun y hy => ?_, h3, by rw [h4]; rfl⟩
      rcases List.mem_cons.1 hy with e | hy
      · rw [e]; exact hx
      · exact h2 y hy

theorem assignRef_none {file : Str} {k : Nat} {refs : List Ref} : assignRef file k refs = none ↔ ∀ x ∈ refs, x.file ≠ file := by
  induction refs with
  | nil => exact ⟨(fun _ _ h => nomatch h), fun _ => rfl⟩
  | cons x l ih =>
    unfold assignRef
    by_cases hx : x.file = file
    · rw [if_pos hx]
      exact ⟨fun h => (nomatch h), fun h => absurd hx (h x List.mem_cons_self)⟩
    · rw [if_neg hx, Option.map_eq_none_iff, ih]
      constructor
      · intro h y hy
        rcases List.mem_cons.1 hy with e | hy
        · rw [e]; exact hx
        · exact h y hy
      · intro h y hy; exact h y (List.mem_cons_of_mem _ hy)

theorem assignRef_files {file : Str} {k : Nat} {refs refs' : List Ref} (h : assignRef file k refs = some refs') :
    refs'.map (·.file) = refs.map (·.file) := by
  obtain ⟨a, r, b, rfl, -, h3, rfl⟩ := assignRef_some h
  simp [h3]

end Nxt.SubLayers
