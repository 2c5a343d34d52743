import Verif.Spec.Stage
/-!
# Lemmas about loading layers
-/
namespace Nxt.Stage
open Spec

variable {read : Str → Str → Loaded} {dirname : Str → Str}

theorem modify_mid {α : Type} (base : List α) (x : α) (ls : List α) (f : α → α) :
    (base ++ x :: ls).modify base.length f = base ++ f x :: ls := by
  induction base with
  | nil => rfl
  | cons b bs ih => simp [List.modify_succ_cons, ih]

theorem fold_running (rec) (me : Nat) (rs : List Str) :
    rs.foldl (refStep read rec me) .running = .running := by
  induction rs with
  | nil => rfl
  | cons r rs ih => exact ih

theorem fold_raised (rec) (me : Nat) (rs : List Str) (st : State) :
    rs.foldl (refStep read rec me) (.raised st) = .raised st := by
  induction rs with
  | nil => rfl
  | cons r rs ih => exact ih

/-- The layer while its references are being read. -/
def partLayer (read : Str → Str → Loaded) (dirname : Str → Str) (d : FileData) (p : Option Nat)
    (done rest : List Str) : LRec :=
  { file := d.file, real := d.real, parent := p,
    subPaths := done.filter (fun r => decide (r ≠ [] ∧ read (dirname d.real) r ≠ .ioError)) ++
      rest.filter (· ≠ []),
    subs := (d.refs.filter (fun r => decide (r ≠ [] ∧ ¬ (r ∈ done ∧ read (dirname d.real) r = .ioError)))).map
      (fun r => (r, none)) }

theorem partLayer_start (d : FileData) (p : Option Nat) :
    newLayer p d = partLayer read dirname d p [] d.refs := by
  simp [newLayer, partLayer]

theorem partLayer_end (d : FileData) (p : Option Nat) :
    partLayer read dirname d p d.refs [] = layerOf read dirname d p := by
  simp only [partLayer, layerOf, goodRefs, List.filter_nil, List.append_nil, LRec.mk.injEq, true_and]
  congr 1
  apply List.filter_congr
  intro r hr
  simp [hr]

theorem partLayer_bad (d : FileData) (p : Option Nat) (done rest : List Str) (r : Str)
    (h : read (dirname d.real) r = .ioError) :
    dropRef r (partLayer read dirname d p done (r :: rest)) = partLayer read dirname d p (done ++ [r]) rest := by
  have hnot : r ∉ done.filter (fun r => decide (r ≠ [] ∧ read (dirname d.real) r ≠ .ioError)) := by
    simp [List.mem_filter, h]
  unfold dropRef partLayer
  simp only [LRec.mk.injEq, true_and]
  constructor
  · rw [List.erase_append_right _ hnot, List.filter_append]
    simp only [List.filter_cons, List.filter_nil, h]
    by_cases h0 : r = []
    · subst h0
      simp [List.erase_of_not_mem]
    · simp [h0]
  · rw [List.filter_map, List.filter_filter]
    congr 1
    apply List.filter_congr
    intro q hq
    by_cases hqr : q = r
    · subst hqr; simp [h]
    · simp [hqr]

theorem partLayer_good (d : FileData) (p : Option Nat) (done rest : List Str) (r : Str)
    (h : read (dirname d.real) r ≠ .ioError) :
    partLayer read dirname d p done (r :: rest) = partLayer read dirname d p (done ++ [r]) rest := by
  unfold partLayer
  simp only [LRec.mk.injEq, true_and]
  constructor
  · rw [List.filter_append, List.append_assoc]
    congr 1
    by_cases h0 : r = [] <;> simp [h0, h]
  · congr 1
    apply List.filter_congr
    intro q hq
    by_cases hqr : q = r
    · subst hqr; simp [h]
    · simp [hqr]

/-- A finished load is the specified list. -/
theorem load_sound (fuel : Nat) (d : FileData) (p : Option Nat) (st st' : State)
    (h : load read dirname fuel d p st = .ok st') :
    ∃ ls, Layers read dirname p st.layers.length d ls ∧ st'.layers = st.layers ++ ls ∧ st'.cwd = st.cwd := by
  induction fuel generalizing d p st st' with
  | zero => cases h
  | succ fuel ih =>
    have inner : ∀ (rest done : List Str) (ls1 : List LRec) (s1 s2 : State), d.refs = done ++ rest →
        s1.layers = st.layers ++ partLayer read dirname d p done rest :: ls1 → s1.cwd = dirname d.real →
        rest.foldl (refStep read (load read dirname fuel) st.layers.length) (.ok s1) = .ok s2 →
        ∃ ls2, RefLayers read dirname st.layers.length (st.layers.length + 1 + ls1.length) (dirname d.real) rest ls2 ∧
          s2.layers = st.layers ++ partLayer read dirname d p d.refs [] :: (ls1 ++ ls2) := by
      intro rest
      induction rest with
      | nil =>
        intro done ls1 s1 s2 hd hl hc hf
        rw [List.append_nil] at hd
        cases hf
        exact ⟨[], .nil, by rw [hl, hd, List.append_nil]⟩
      | cons r rest ihr =>
        intro done ls1 s1 s2 hd hl hc hf
        have hd' : d.refs = (done ++ [r]) ++ rest := by rw [hd]; simp
        rw [List.foldl_cons, refStep] at hf
        simp only [hc] at hf
        cases hr : read (dirname d.real) r with
        | ioError =>
          rw [hr] at hf
          simp only at hf
          obtain ⟨ls2, h1, h2⟩ := ihr (done ++ [r]) ls1 _ s2 hd'
            (by simp only; rw [hl, modify_mid, partLayer_bad _ _ _ _ _ hr]) rfl hf
          exact ⟨ls2, .skip (Or.inl hr) h1, h2⟩
        | raises =>
          rw [hr] at hf
          simp only at hf
          rw [fold_raised] at hf; cases hf
        | empty =>
          rw [hr] at hf
          simp only at hf
          obtain ⟨ls2, h1, h2⟩ := ihr (done ++ [r]) ls1 _ s2 hd'
            (by rw [hl, partLayer_good _ _ _ _ _ (by rw [hr]; exact nofun)]) hc hf
          exact ⟨ls2, .skip (Or.inr hr) h1, h2⟩
        | data e =>
          rw [hr] at hf
          simp only at hf
          cases hle : load read dirname fuel e (some st.layers.length) s1 with
          | running => rw [hle, fold_running] at hf; cases hf
          | raised s => rw [hle, fold_raised] at hf; cases hf
          | ok s3 =>
            rw [hle] at hf
            obtain ⟨ls, g1, g2, g3⟩ := ih _ _ _ _ hle
            obtain ⟨ls2, h1, h2⟩ := ihr (done ++ [r]) (ls1 ++ ls) s3 s2 hd'
              (by rw [g2, hl, partLayer_good _ _ _ _ _ (by rw [hr]; exact nofun)]; simp)
              (g3.trans hc) hf
            refine ⟨ls ++ ls2, .load hr ?_ ?_, by rw [h2, List.append_assoc]⟩
            · rw [hl] at g1
              simpa [Nat.add_assoc, Nat.add_comm, Nat.add_left_comm] using g1
            · simpa [Nat.add_assoc, Nat.add_comm, Nat.add_left_comm] using h1
    rw [load] at h
    cases hres : d.refs.foldl (refStep read (load read dirname fuel) st.layers.length)
        (.ok { layers := st.layers ++ [newLayer p d], cwd := dirname d.real }) with
    | running => rw [hres] at h; cases h
    | raised s => rw [hres] at h; cases h
    | ok s2 =>
      rw [hres] at h
      cases h
      obtain ⟨ls, h1, h2⟩ := inner d.refs [] [] _ s2 rfl (by rw [← partLayer_start]) rfl hres
      exact ⟨_, .file (by simpa using h1), by rw [h2, partLayer_end]; simp, rfl⟩

mutual
theorem layers_acc {p n d ls} : Layers read dirname p n d ls → Acc (fun a b => Refers read dirname b a) d
  | .file h => Acc.intro _ (fun e ⟨r, hr, he⟩ => refs_acc h r hr e he)
theorem refs_acc {p n dir rs ls} : RefLayers read dirname p n dir rs ls → ∀ r ∈ rs, ∀ e,
    read dir r = .data e → Acc (fun a b => Refers read dirname b a) e
  | .nil, _, hr, _, _ => nomatch hr
  | .skip hs h, r, hr, e, he => by
    rcases List.mem_cons.1 hr with rfl | hr
    · rcases hs with hs | hs <;> rw [hs] at he <;> cases he
    · exact refs_acc h r hr e he
  | .load hd hl h, r, hr, e, he => by
    rcases List.mem_cons.1 hr with rfl | hr
    · rw [hd] at he; cases he; exact layers_acc hl
    · exact refs_acc h r hr e he
end

/-- No file below raises. -/
def Clean (read : Str → Str → Loaded) (dirname : Str → Str) (d : FileData) : Prop :=
  ∀ e, RefersStar read dirname d e → ∀ r ∈ e.refs, read (dirname e.real) r ≠ .raises

theorem Clean.next {d e} (h : Clean read dirname d) (hr : Refers read dirname d e) : Clean read dirname e :=
  fun f hf => h f (.step hr hf)

/-- Without raising files there are two outcomes. -/
theorem load_cases (fuel : Nat) (d : FileData) (hc : Clean read dirname d) (p : Option Nat) (st : State) :
    load read dirname fuel d p st = .running ∨ ∃ st', load read dirname fuel d p st = .ok st' := by
  induction fuel generalizing d p st with
  | zero => exact Or.inl rfl
  | succ fuel ih =>
    have inner : ∀ (rest : List Str) (s1 : State), (∀ r ∈ rest, r ∈ d.refs) → s1.cwd = dirname d.real →
        rest.foldl (refStep read (load read dirname fuel) st.layers.length) (.ok s1) = .running ∨
        ∃ s2, rest.foldl (refStep read (load read dirname fuel) st.layers.length) (.ok s1) = .ok s2 := by
      intro rest
      induction rest with
      | nil => intro s1 _ _; exact Or.inr ⟨s1, rfl⟩
      | cons r rest ihr =>
        intro s1 hm hcw
        have hm' := fun r hr => hm r (List.mem_cons_of_mem _ hr)
        have hmr := hm r (List.mem_cons_self ..)
        rw [List.foldl_cons, refStep]
        simp only [hcw]
        cases hr : read (dirname d.real) r with
        | ioError => exact ihr _ hm' rfl
        | raises => exact absurd hr (hc d .refl r hmr)
        | empty => exact ihr _ hm' hcw
        | data e =>
          simp only
          rcases ih e (hc.next ⟨r, hmr, hr⟩) (some st.layers.length) s1 with h1 | ⟨s3, h1⟩
          · rw [h1, fold_running]; exact Or.inl rfl
          · rw [h1]
            obtain ⟨_, _, _, g3⟩ := load_sound _ _ _ _ _ h1
            exact ihr _ hm' (g3.trans hcw)
    rw [load]
    rcases inner d.refs { layers := st.layers ++ [newLayer p d], cwd := dirname d.real } (fun _ h => h) rfl with h | ⟨s2, h⟩
    · rw [h]; exact Or.inl rfl
    · rw [h]; exact Or.inr ⟨_, rfl⟩

theorem load_total (d : FileData) (ha : Acc (fun a b => Refers read dirname b a) d)
    (hc : Clean read dirname d) : ∃ F, ∀ fuel, F ≤ fuel → ∀ p st, ∃ st', load read dirname fuel d p st = .ok st' := by
  induction ha with
  | intro d _ ih =>
    have hF : ∀ rs : List Str, (∀ r ∈ rs, r ∈ d.refs) → ∃ F, ∀ r ∈ rs, ∀ e, read (dirname d.real) r = .data e →
        ∀ fuel, F ≤ fuel → ∀ p st, ∃ st', load read dirname fuel e p st = .ok st' := by
      intro rs
      induction rs with
      | nil => intro _; exact ⟨0, fun _ h => nomatch h⟩
      | cons r rs ihr =>
        intro hm
        obtain ⟨F1, h1⟩ := ihr (fun r hr => hm r (List.mem_cons_of_mem _ hr))
        have hmr := hm r (List.mem_cons_self ..)
        cases hr : read (dirname d.real) r with
        | data e =>
          obtain ⟨F2, h2⟩ := ih e ⟨r, hmr, hr⟩ (hc.next ⟨r, hmr, hr⟩)
          refine ⟨max F1 F2, fun q hq f hf fuel hfu => ?_⟩
          rcases List.mem_cons.1 hq with rfl | hq
          · rw [hr] at hf; cases hf; exact h2 fuel (by omega)
          · exact h1 q hq f hf fuel (by omega)
        | _ =>
          refine ⟨F1, fun q hq f hf fuel hfu => ?_⟩
          rcases List.mem_cons.1 hq with rfl | hq
          · rw [hr] at hf; cases hf
          · exact h1 q hq f hf fuel hfu
    obtain ⟨F, hF⟩ := hF d.refs (fun _ h => h)
    refine ⟨F + 1, fun fuel hfu p st => ?_⟩
    obtain ⟨fuel, rfl⟩ : ∃ n, fuel = n + 1 := ⟨fuel - 1, by omega⟩
    have inner : ∀ (rest : List Str) (s1 : State), (∀ r ∈ rest, r ∈ d.refs) → s1.cwd = dirname d.real →
        ∃ s2, rest.foldl (refStep read (load read dirname fuel) st.layers.length) (.ok s1) = .ok s2 := by
      intro rest
      induction rest with
      | nil => intro s1 _ _; exact ⟨s1, rfl⟩
      | cons r rest ihr =>
        intro s1 hm hcw
        have hm' := fun r hr => hm r (List.mem_cons_of_mem _ hr)
        have hmr := hm r (List.mem_cons_self ..)
        rw [List.foldl_cons, refStep]
        simp only [hcw]
        cases hr : read (dirname d.real) r with
        | ioError => exact ihr _ hm' rfl
        | raises => exact absurd hr (hc d .refl r hmr)
        | empty => exact ihr _ hm' hcw
        | data e =>
          simp only
          obtain ⟨s3, h1⟩ := hF r hmr e hr fuel (by omega) (some st.layers.length) s1
          rw [h1]
          obtain ⟨_, _, _, g3⟩ := load_sound _ _ _ _ _ h1
          exact ihr _ hm' (g3.trans hcw)
    obtain ⟨s2, h⟩ := inner d.refs { layers := st.layers ++ [newLayer p d], cwd := dirname d.real } (fun _ h => h) rfl
    rw [load]
    simp only [h]
    exact ⟨_, rfl⟩

mutual
theorem layers_parents {p n d ls} : Layers read dirname p n d ls →
    (∃ l, ls[0]? = some l ∧ l.parent = p) ∧ ∀ (i : Nat) (l : LRec), ls[i + 1]? = some l →
      ∃ j, l.parent = some j ∧ n ≤ j ∧ j < n + (i + 1)
  | .file h => ⟨⟨_, rfl, rfl⟩, fun i l hl => by
      obtain ⟨j, h1, h2⟩ := refs_parents h (Nat.lt_succ_self _) i l (by simpa using hl)
      exact ⟨j, h1, by omega, by omega⟩⟩
theorem refs_parents {p n dir rs ls} : RefLayers read dirname p n dir rs ls → p < n →
    ∀ (i : Nat) (l : LRec), ls[i]? = some l → ∃ j, l.parent = some j ∧ p ≤ j ∧ j < n + i
  | .nil, _, i, l, hl => by simp at hl
  | .skip _ h, hp, i, l, hl => refs_parents h hp i l hl
  | @RefLayers.load _ _ _ _ _ _ _ _ ls1 ls2 _ h1 h2, hp, i, l, hl => by
    by_cases hi : i < ls1.length
    · rw [List.getElem?_append_left hi] at hl
      obtain ⟨⟨l0, a1, a2⟩, a3⟩ := layers_parents h1
      cases i with
      | zero => rw [a1] at hl; cases hl; exact ⟨p, a2, Nat.le_refl _, by omega⟩
      | succ i =>
        obtain ⟨j, b1, b2, b3⟩ := a3 i l hl
        exact ⟨j, b1, by omega, by omega⟩
    · rw [List.getElem?_append_right (by omega)] at hl
      obtain ⟨j, b1, b2, b3⟩ := refs_parents h2 (by omega) _ l hl
      exact ⟨j, b1, b2, by omega⟩
end

end Nxt.Stage
