import Verif.Model.Mro
/-!
# Lemmas about the C3 merge and linearisation
-/
namespace Nxt.Mro
variable {α : Type} [DecidableEq α]

/-! ### One step of the merge -/

theorem pick_some {all ls : List (List α)} {h : α} (hp : pick all ls = some h) :
    (∃ l ∈ ls, l.head? = some h) ∧ ∀ l ∈ all, h ∉ l.tail := by
  induction ls with
  | nil => simp [pick] at hp
  | cons l ls ih =>
    cases l with
    | nil =>
      simp only [pick] at hp
      obtain ⟨⟨l, hl, h1⟩, h2⟩ := ih hp
      exact ⟨⟨l, List.mem_cons_of_mem _ hl, h1⟩, h2⟩
    | cons x t =>
      simp only [pick] at hp
      split at hp
      · rename_i hx
        cases hp
        exact ⟨⟨_, List.mem_cons_self, rfl⟩, hx⟩
      · obtain ⟨⟨l, hl, h1⟩, h2⟩ := ih hp
        exact ⟨⟨l, List.mem_cons_of_mem _ hl, h1⟩, h2⟩

theorem pick_none {all ls : List (List α)} (hp : pick all ls = none) :
    ∀ l ∈ ls, ∀ h, l.head? = some h → ∃ m ∈ all, h ∈ m.tail := by
  induction ls with
  | nil => intro l hl; cases hl
  | cons l ls ih =>
    cases l with
    | nil =>
      simp only [pick] at hp
      intro l hl h hh
      rcases List.mem_cons.1 hl with rfl | hl
      · cases hh
      · exact ih hp l hl h hh
    | cons x t =>
      simp only [pick] at hp
      split at hp
      · cases hp
      · rename_i hx
        intro l hl h hh
        rcases List.mem_cons.1 hl with rfl | hl
        · cases hh
          apply Classical.byContradiction
          intro hno
          exact hx fun m hm hm' => hno ⟨m, hm, hm'⟩
        · exact ih hp l hl h hh

/-- Lists with blocked or no heads are passed over. -/
theorem pick_skip {all ls rest : List (List α)}
    (hb : ∀ l ∈ ls, ∀ h, l.head? = some h → ∃ m ∈ all, h ∈ m.tail) :
    pick all (ls ++ rest) = pick all rest := by
  induction ls with
  | nil => rfl
  | cons l ls ih =>
    have ih := ih (fun l hl => hb l (List.mem_cons_of_mem _ hl))
    cases l with
    | nil => simpa [pick] using ih
    | cons x t =>
      rw [List.cons_append]
      simp only [pick]
      rw [if_neg, ih]
      intro hx
      obtain ⟨m, hm, hxm⟩ := hb _ List.mem_cons_self x rfl
      exact hx m hm hxm

theorem pick_head {all rest : List (List α)} {h : α} {t : List α} (hf : ∀ l ∈ all, h ∉ l.tail) :
    pick all ((h :: t) :: rest) = some h := by
  simp only [pick]
  rw [if_pos hf]

theorem strip_cons (h : α) (t : List α) : strip h (h :: t) = t := by simp [strip]

theorem strip_ne {h : α} {l : List α} (hn : l.head? ≠ some h) : strip h l = l := by simp [strip, hn]

theorem strip_not_mem {h : α} {l : List α} (hn : h ∉ l) : strip h l = l :=
  strip_ne fun hh => hn (List.mem_of_mem_head? hh)

theorem not_mem_strip {h : α} {l : List α} (hn : h ∉ l.tail) : h ∉ strip h l := by
  cases l with
  | nil => simp [strip]
  | cons x t =>
    by_cases hx : x = h
    · subst hx; rw [strip_cons]; exact hn
    · rw [strip_ne (by simpa using hx)]
      simp only [List.mem_cons, not_or]
      exact ⟨fun h' => hx h'.symm, hn⟩

theorem strip_length_le (h : α) (l : List α) : (strip h l).length ≤ l.length := by
  unfold strip; split <;> simp

theorem sum_strip_le (h : α) (ls : List (List α)) :
    ((ls.map (strip h)).map List.length).sum ≤ (ls.map List.length).sum := by
  induction ls with
  | nil => simp
  | cons l ls ih =>
    have := strip_length_le h l
    simp only [List.map_cons, List.sum_cons]
    omega

theorem sum_strip {h : α} {ls : List (List α)} (hh : ∃ l ∈ ls, l.head? = some h) :
    ((ls.map (strip h)).map List.length).sum + 1 ≤ (ls.map List.length).sum := by
  induction ls with
  | nil => simp at hh
  | cons l ls ih =>
    simp only [List.map_cons, List.sum_cons]
    obtain ⟨m, hm, h1⟩ := hh
    rcases List.mem_cons.1 hm with rfl | hm
    · cases m with
      | nil => cases h1
      | cons x t =>
        obtain rfl : x = h := by simpa using h1
        rw [strip_cons]
        have := sum_strip_le x ls
        simp only [List.length_cons]
        omega
    · have := ih ⟨m, hm, h1⟩
      have := strip_length_le h l
      omega

theorem sum_pos {ls : List (List α)} (h : ¬ ∀ l ∈ ls, l = []) : 0 < (ls.map List.length).sum := by
  induction ls with
  | nil => exact absurd (fun _ h => nomatch h) h
  | cons l ls ih =>
    simp only [List.map_cons, List.sum_cons]
    cases l with
    | cons x t => simp only [List.length_cons]; omega
    | nil =>
      have := ih fun hl => h fun m hm => by
        rcases List.mem_cons.1 hm with rfl | hm
        · rfl
        · exact hl m hm
      omega

/-! ### Enough fuel -/

theorem mergeLoop_fuel (f : Nat) : ∀ (f' : Nat) (ls : List (List α)), (ls.map List.length).sum ≤ f →
    (ls.map List.length).sum ≤ f' → mergeLoop f ls = mergeLoop f' ls := by
  induction f with
  | zero =>
    intro f' ls h _
    have he : ∀ l ∈ ls, l = [] := by
      apply Classical.byContradiction
      intro hn
      have := sum_pos hn
      omega
    cases f' with
    | zero => rfl
    | succ f' => simp only [mergeLoop]; rw [if_pos he, if_pos he]
  | succ f ih =>
    intro f' ls h h'
    by_cases he : ∀ l ∈ ls, l = []
    · cases f' with
      | zero => simp only [mergeLoop]; rw [if_pos he, if_pos he]
      | succ f' => simp only [mergeLoop]; rw [if_pos he, if_pos he]
    · have := sum_pos he
      cases f' with
      | zero => omega
      | succ f' =>
        simp only [mergeLoop]
        rw [if_neg he, if_neg he]
        cases hp : pick ls ls with
        | none => rfl
        | some x =>
          have := sum_strip (pick_some hp).1
          simp only
          rw [ih f' (ls.map (strip x)) (by omega) (by omega)]

theorem merge_nil {ls : List (List α)} (h : ∀ l ∈ ls, l = []) : merge ls = some [] := by
  unfold merge
  cases (ls.map List.length).sum <;> (simp only [mergeLoop]; rw [if_pos h])

theorem merge_step {ls : List (List α)} {h : α} (hp : pick ls ls = some h) :
    merge ls = (merge (ls.map (strip h))).map (h :: ·) := by
  have hs := pick_some hp
  have hlt := sum_strip hs.1
  have he : ¬ ∀ l ∈ ls, l = [] := by
    intro he
    obtain ⟨l, hl, hh⟩ := hs.1
    rw [he l hl] at hh; cases hh
  unfold merge
  cases hf : (ls.map List.length).sum with
  | zero => omega
  | succ f =>
    simp only [mergeLoop]
    rw [if_neg he, hp]
    simp only
    rw [mergeLoop_fuel f _ _ (by omega) (Nat.le_refl _)]

theorem merge_stuck {ls : List (List α)} (he : ¬ ∀ l ∈ ls, l = []) (hp : pick ls ls = none) :
    merge ls = none := by
  unfold merge
  have := sum_pos he
  cases hf : (ls.map List.length).sum with
  | zero => omega
  | succ f => simp only [mergeLoop]; rw [if_neg he, hp]

/-- Induction over the merge. -/
theorem merge_induct {P : List (List α) → List α → Prop}
    (h0 : ∀ ls : List (List α), (∀ l ∈ ls, l = []) → P ls [])
    (h1 : ∀ (ls : List (List α)) h r, (∃ l ∈ ls, l.head? = some h) → (∀ l ∈ ls, h ∉ l.tail) →
      P (ls.map (strip h)) r → P ls (h :: r))
    {ls : List (List α)} {r : List α} (hm : merge ls = some r) : P ls r := by
  suffices hf : ∀ (f : Nat) (ls : List (List α)) (r : List α), mergeLoop f ls = some r → P ls r from hf _ _ _ hm
  intro f
  induction f with
  | zero =>
    intro ls r h
    simp only [mergeLoop] at h
    split at h
    · cases h; exact h0 _ ‹_›
    · cases h
  | succ f ih =>
    intro ls r h
    simp only [mergeLoop] at h
    split at h
    · cases h; exact h0 _ ‹_›
    · split at h
      · cases h
      · rename_i x hp
        obtain ⟨r', hr', rfl⟩ := Option.map_eq_some_iff.1 h
        exact h1 _ _ _ (pick_some hp).1 (pick_some hp).2 (ih _ _ hr')

/-! ### What the merge gives -/

theorem merge_sublist {ls : List (List α)} {r : List α} (hm : merge ls = some r) : ∀ l ∈ ls, List.Sublist l r := by
  refine merge_induct (P := fun ls r => ∀ l ∈ ls, List.Sublist l r) ?_ ?_ hm
  · intro ls h l hl; rw [h l hl]; exact List.Sublist.refl _
  · intro ls h r _ hf ih l hl
    have := ih _ (List.mem_map_of_mem (f := strip h) hl)
    by_cases hh : l.head? = some h
    · cases l with
      | nil => cases hh
      | cons x t => cases hh; rw [strip_cons] at this; exact this.cons_cons _
    · rw [strip_ne hh] at this; exact this.cons _

theorem mem_of_mem_strip {h x : α} {l : List α} (hx : x ∈ strip h l) : x ∈ l := by
  unfold strip at hx
  split at hx
  · exact List.mem_of_mem_tail hx
  · exact hx

theorem merge_mem {ls : List (List α)} {r : List α} (hm : merge ls = some r) (x : α) :
    x ∈ r ↔ ∃ l ∈ ls, x ∈ l := by
  constructor
  · revert x
    refine merge_induct (P := fun ls r => ∀ x, x ∈ r → ∃ l ∈ ls, x ∈ l) ?_ ?_ hm
    · intro ls _ x hx; cases hx
    · intro ls h r hh _ ih x hx
      rcases List.mem_cons.1 hx with rfl | hx
      · obtain ⟨l, hl, h1⟩ := hh
        exact ⟨l, hl, List.mem_of_mem_head? h1⟩
      · obtain ⟨m, hmm, hxm⟩ := ih x hx
        obtain ⟨l, hl, rfl⟩ := List.mem_map.1 hmm
        exact ⟨l, hl, mem_of_mem_strip hxm⟩
  · rintro ⟨l, hl, hx⟩
    exact (merge_sublist hm l hl).subset hx

theorem merge_nodup {ls : List (List α)} {r : List α} (hm : merge ls = some r) : r.Nodup := by
  have : r.Nodup ∧ ∀ x ∈ r, ∃ l ∈ ls, x ∈ l := by
    refine merge_induct (P := fun ls r => r.Nodup ∧ ∀ x ∈ r, ∃ l ∈ ls, x ∈ l) ?_ ?_ hm
    · intro ls _; exact ⟨List.nodup_nil, fun _ h => nomatch h⟩
    · intro ls h r hh hf ih
      refine ⟨List.nodup_cons.2 ⟨fun hr => ?_, ih.1⟩, fun x hx => ?_⟩
      · obtain ⟨m, hmm, hxm⟩ := ih.2 h hr
        obtain ⟨l, hl, rfl⟩ := List.mem_map.1 hmm
        exact not_mem_strip (hf l hl) hxm
      · rcases List.mem_cons.1 hx with rfl | hx
        · obtain ⟨l, hl, h1⟩ := hh
          exact ⟨l, hl, List.mem_of_mem_head? h1⟩
        · obtain ⟨m, hmm, hxm⟩ := ih.2 x hx
          obtain ⟨l, hl, rfl⟩ := List.mem_map.1 hmm
          exact ⟨l, hl, mem_of_mem_strip hxm⟩
  exact this.1

theorem strip_sublist {x : α} {l t : List α} (hs : List.Sublist l (x :: t)) (hx : x ∉ t) :
    List.Sublist (strip x l) t := by
  cases hs with
  | cons _ h => rw [strip_not_mem fun hm => hx (h.subset hm)]; exact h
  | cons_cons _ h => rw [strip_cons]; exact h

/-- One of the lists contains all others, in order: the merge is that list. -/
theorem merge_of_sublists (r : List α) : ∀ (ls : List (List α)), r ∈ ls → (∀ l ∈ ls, List.Sublist l r) →
    r.Nodup → merge ls = some r := by
  induction r with
  | nil => intro ls _ hs _; exact merge_nil fun l hl => List.sublist_nil.1 (hs l hl)
  | cons x t ih =>
    intro ls hr hs hn
    have hx := (List.nodup_cons.1 hn).1
    have htail : ∀ l ∈ ls, x ∉ l.tail := by
      intro l hl hm
      cases l with
      | nil => cases hm
      | cons y u =>
        have := strip_sublist (hs _ hl) hx
        by_cases hy : y = x
        · subst hy; rw [strip_cons] at this; exact hx (this.subset hm)
        · rw [strip_ne (by simpa using hy)] at this
          exact hx (this.subset (List.mem_cons_of_mem _ hm))
    have hp : pick ls ls = some x := by
      have key : ∀ l ∈ ls, ∀ h, l.head? = some h → h = x ∨ h ∈ t := fun l hl h hh =>
        List.mem_cons.1 ((hs l hl).subset (List.mem_of_mem_head? hh))
      cases hp : pick ls ls with
      | none =>
        obtain ⟨m, hm, hxm⟩ := pick_none hp _ hr x rfl
        exact absurd hxm (htail m hm)
      | some h =>
        obtain ⟨⟨l, hl, hh⟩, hf⟩ := pick_some hp
        rcases key l hl h hh with rfl | ht
        · rfl
        · exact absurd ht (hf _ hr)
    rw [merge_step hp, ih (ls.map (strip x)) ?_ ?_ (List.nodup_cons.1 hn).2]
    · rfl
    · exact List.mem_map.2 ⟨_, hr, strip_cons _ _⟩
    · intro l hl
      obtain ⟨m, hm, rfl⟩ := List.mem_map.1 hl
      exact strip_sublist (hs m hm) hx

/-! ### Linearisations -/

theorem allSome_eq {β : Type} {os : List (Option β)} {l : List β} (h : allSome os = some l) :
    os = l.map some := by
  induction os generalizing l with
  | nil => cases h; rfl
  | cons o os ih =>
    cases o with
    | none => cases h
    | some b =>
      simp only [allSome] at h
      obtain ⟨l', hl', rfl⟩ := Option.map_eq_some_iff.1 h
      rw [List.map_cons, ih hl']

theorem allSome_map {β : Type} (l : List β) : allSome (l.map some) = some l := by
  induction l with
  | nil => rfl
  | cons b l ih => simp [allSome, ih]

theorem lin_succ {bases : α → List α} {f : Nat} {c : α} {l : List α} :
    lin bases (f + 1) c = some l ↔
      ∃ ls m, (bases c).map (lin bases f) = ls.map some ∧ merge (ls ++ [bases c]) = some m ∧ l = c :: m := by
  simp only [lin]
  constructor
  · intro h
    split at h
    · cases h
    · rename_i ls hls
      obtain ⟨m, hm, rfl⟩ := Option.map_eq_some_iff.1 h
      exact ⟨ls, m, allSome_eq hls, hm, rfl⟩
  · rintro ⟨ls, m, hls, hm, rfl⟩
    rw [hls, allSome_map]
    simp only
    rw [hm]; rfl

theorem lin_mono {bases : α → List α} {f : Nat} : ∀ {f' : Nat} {c : α} {l : List α}, f ≤ f' →
    lin bases f c = some l → lin bases f' c = some l := by
  induction f with
  | zero => intro f' c l _ h; simp [lin] at h
  | succ f ih =>
    intro f' c l hf h
    cases f' with
    | zero => omega
    | succ f' =>
      obtain ⟨ls, m, hls, hm, rfl⟩ := lin_succ.1 h
      refine lin_succ.2 ⟨ls, m, ?_, hm, rfl⟩
      rw [← hls]
      apply List.map_congr_left
      intro b hb
      have : lin bases f b ∈ ls.map some := hls ▸ List.mem_map_of_mem hb
      obtain ⟨l, _, hl⟩ := List.mem_map.1 this
      rw [← hl]
      exact ih (by omega) hl.symm

theorem lin_det {bases : α → List α} {f f' : Nat} {c : α} {l l' : List α} (h : lin bases f c = some l)
    (h' : lin bases f' c = some l') : l = l' := by
  have h1 := lin_mono (Nat.le_max_left f f') h
  rw [lin_mono (Nat.le_max_right f f') h'] at h1
  exact (Option.some.inj h1).symm

/-- The order of a class starts with the class and keeps the orders of its bases and the bases. -/
theorem lin_parts {bases : α → List α} {f : Nat} {c : α} {l : List α} (h : lin bases f c = some l) :
    ∃ f' m, f = f' + 1 ∧ l = c :: m ∧ m.Nodup ∧ List.Sublist (bases c) m ∧
      (∀ b ∈ bases c, ∃ lb, lin bases f' b = some lb ∧ List.Sublist lb m) ∧
      ∀ x ∈ m, x ∈ bases c ∨ ∃ b ∈ bases c, ∃ lb, lin bases f' b = some lb ∧ x ∈ lb := by
  cases f with
  | zero => simp [lin] at h
  | succ f =>
    obtain ⟨ls, m, hls, hm, rfl⟩ := lin_succ.1 h
    have hsub := merge_sublist hm
    refine ⟨f, m, rfl, rfl, merge_nodup hm, hsub _ (by simp), fun b hb => ?_, fun x hx => ?_⟩
    · have : lin bases f b ∈ ls.map some := hls ▸ List.mem_map_of_mem hb
      obtain ⟨lb, hlb, he⟩ := List.mem_map.1 this
      exact ⟨lb, he.symm, hsub _ (by simp [hlb])⟩
    · obtain ⟨l, hl, hxl⟩ := (merge_mem hm x).1 hx
      rcases List.mem_append.1 hl with hl | hl
      · have : some l ∈ (bases c).map (lin bases f) := hls ▸ List.mem_map_of_mem hl
        obtain ⟨b, hb, he⟩ := List.mem_map.1 this
        exact Or.inr ⟨b, hb, l, he, hxl⟩
      · rw [List.mem_singleton.1 hl] at hxl
        exact Or.inl hxl

theorem lin_self {bases : α → List α} {f : Nat} {c : α} {l : List α} (h : lin bases f c = some l) : c ∈ l := by
  obtain ⟨_, m, _, rfl, _⟩ := lin_parts h
  exact List.mem_cons_self

/-- Every class in the order has an order, which is kept. -/
theorem lin_mem {bases : α → List α} {f : Nat} : ∀ {c : α} {l : List α}, lin bases f c = some l →
    ∀ d ∈ l, ∃ ld, lin bases f d = some ld ∧ List.Sublist ld l := by
  induction f with
  | zero => intro c l h; simp [lin] at h
  | succ f ih =>
    intro c l h d hd
    obtain ⟨f', m, hf, rfl, _, _, hb, hx⟩ := lin_parts h
    cases hf
    rcases List.mem_cons.1 hd with rfl | hd
    · exact ⟨_, h, List.Sublist.refl _⟩
    · have : ∃ b ∈ bases c, ∃ lb, lin bases f b = some lb ∧ d ∈ lb := by
        rcases hx d hd with hd | hd
        · obtain ⟨lb, hlb, _⟩ := hb d hd
          exact ⟨d, hd, lb, hlb, lin_self hlb⟩
        · exact hd
      obtain ⟨b, hbm, lb, hlb, hdb⟩ := this
      obtain ⟨lb', hlb', hs⟩ := hb b hbm
      rw [hlb] at hlb'
      cases hlb'
      obtain ⟨ld, hld, hs'⟩ := ih hlb d hdb
      exact ⟨ld, lin_mono (Nat.le_succ _) hld, (hs'.trans hs).cons _⟩

theorem lin_nodup {bases : α → List α} {f : Nat} {c : α} {l : List α} (h : lin bases f c = some l) : l.Nodup := by
  obtain ⟨f', m, rfl, rfl, hn, _, hb, hx⟩ := lin_parts h
  refine List.nodup_cons.2 ⟨fun hc => ?_, hn⟩
  have : ∃ b ∈ bases c, ∃ lb, lin bases f' b = some lb ∧ c ∈ lb := by
    rcases hx c hc with hd | hd
    · obtain ⟨lb, hlb, _⟩ := hb c hd
      exact ⟨c, hd, lb, hlb, lin_self hlb⟩
    · exact hd
  obtain ⟨b, hbm, lb, hlb, hdb⟩ := this
  obtain ⟨lb', hlb', hs⟩ := hb b hbm
  rw [hlb] at hlb'
  cases hlb'
  obtain ⟨lc, hlc, hs'⟩ := lin_mem hlb c hdb
  have := lin_det hlc h
  subst this
  have := (hs'.trans hs).length_le
  simp only [List.length_cons] at this
  omega

/-- As much fuel as the order is long suffices. -/
theorem lin_length {bases : α → List α} {f : Nat} : ∀ {c : α} {l : List α}, lin bases f c = some l →
    lin bases l.length c = some l := by
  induction f with
  | zero => intro c l h; simp [lin] at h
  | succ f ih =>
    intro c l h
    obtain ⟨ls, m, hls, hm, rfl⟩ := lin_succ.1 h
    refine lin_succ.2 ⟨ls, m, ?_, hm, rfl⟩
    rw [← hls]
    apply List.map_congr_left
    intro b hb
    have : lin bases f b ∈ ls.map some := hls ▸ List.mem_map_of_mem hb
    obtain ⟨l, hl, he⟩ := List.mem_map.1 this
    rw [← he]
    exact lin_mono (merge_sublist hm l (by simp [hl])).length_le (ih he.symm)

end Nxt.Mro
