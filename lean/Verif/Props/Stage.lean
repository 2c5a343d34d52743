import Verif.Lemmas.Stage
/-!
# Properties C48, C49, C65: loading layers, reference cycles, the root layer
-/
namespace Nxt.Props
open Stage Spec

variable {read : Str → Str → Loaded} {dirname : Str → Str}

/-! ## C49 -/

/-- C49: a finished load has added the layers of the file in depth first order (a layer, then those
of its references, each read from the directory of the referring file; unreadable references are
skipped and forgotten), and the working directory is as before. -/
theorem C49_order (fuel : Nat) (d : FileData) (st st' : State) (parent : Option Nat)
    (h : load read dirname fuel d parent st = .ok st') :
    ∃ ls, Layers read dirname parent st.layers.length d ls ∧ st'.layers = st.layers ++ ls ∧
      st'.cwd = st.cwd := load_sound fuel d parent st st' h

/-- C49: loading ends exactly when following references always ends, if no file raises anything but
`IOError`. -/
theorem C49_terminates_iff (d : FileData)
    (hc : ∀ e, RefersStar read dirname d e → ∀ r ∈ e.refs, read (dirname e.real) r ≠ .raises)
    (parent : Option Nat) (st : State) :
    (∃ fuel st', load read dirname fuel d parent st = .ok st') ↔
      Acc (fun a b => Refers read dirname b a) d := by
  constructor
  · rintro ⟨fuel, st', h⟩
    obtain ⟨ls, h1, _⟩ := load_sound _ _ _ _ _ h
    exact layers_acc h1
  · intro ha
    obtain ⟨F, hF⟩ := load_total d ha hc
    obtain ⟨st', h⟩ := hF F (Nat.le_refl _) parent st
    exact ⟨F, st', h⟩

theorem star_acc {d e : FileData} (h : RefersStar read dirname d e)
    (ha : Acc (fun a b => Refers read dirname b a) d) : Acc (fun a b => Refers read dirname b a) e := by
  induction h with
  | refl => exact ha
  | step hr _ ih => exact ih (ha.inv hr)

theorem star_snoc {d e f : FileData} (h : RefersStar read dirname d e) (h' : Refers read dirname e f) :
    RefersStar read dirname d f := by
  induction h with
  | refl => exact .step h' .refl
  | step hr _ ih => exact .step hr (ih h')

theorem cycle_not_acc {e : FileData} (ha : Acc (fun a b => Refers read dirname b a) e) :
    ∀ f, Refers read dirname e f → RefersStar read dirname f e → False := by
  induction ha with
  | intro e _ ih =>
    intro f h1 h2
    -- go once around, starting at `f`
    cases h2 with
    | refl => exact ih e h1 e h1 .refl
    | step g1 g2 => exact ih f h1 _ g1 (star_snoc g2 h1)

/-- C49: files which reference each other in a circle are loaded for ever (in CPython: until the
recursion limit); `check_for_layer_ref_cycle` is not consulted. -/
theorem C49_cycle (d e f : FileData) (hd : RefersStar read dirname d e) (hef : Refers read dirname e f)
    (hfe : RefersStar read dirname f e)
    (hc : ∀ e, RefersStar read dirname d e → ∀ r ∈ e.refs, read (dirname e.real) r ≠ .raises)
    (fuel : Nat) (parent : Option Nat) (st : State) : load read dirname fuel d parent st = .running := by
  rcases load_cases fuel d hc parent st with h | ⟨st', h⟩
  · exact h
  · exact absurd ((C49_terminates_iff d hc parent st).1 ⟨fuel, st', h⟩)
      (fun ha => cycle_not_acc (star_acc hd ha) f hef hfe)

/-- C49: after loading into an empty stage every parent comes before its children, and only the
first layer has none. -/
theorem C49_parents (fuel : Nat) (d : FileData) (cwd : Str) (st' : State)
    (h : load read dirname fuel d none ⟨[], cwd⟩ = .ok st') :
    ParentsFirst st'.layers ∧ ∀ (i : Nat) (l : LRec), st'.layers[i]? = some l → (l.parent = none ↔ i = 0) := by
  obtain ⟨ls, h1, h2, _⟩ := load_sound _ _ _ _ _ h
  rw [List.nil_append] at h2
  rw [h2]
  obtain ⟨⟨l0, a1, a2⟩, a3⟩ := layers_parents h1
  constructor
  · intro i l j hl hp
    cases i with
    | zero => rw [a1] at hl; cases hl; rw [a2] at hp; cases hp
    | succ i =>
      obtain ⟨j', b1, b2, b3⟩ := a3 i l hl
      rw [b1] at hp; cases hp
      simpa using b3
  · intro i l hl
    cases i with
    | zero => rw [a1] at hl; cases hl; simp [a2]
    | succ i =>
      obtain ⟨j', b1, _⟩ := a3 i l hl
      simp [b1]

/-- The example files: `a` references `x/b`, a missing file, and `c`; `x/b` references `c` of its
own directory. -/
def exRead (cwd path : Str) : Loaded :=
  if cwd = "/g".toList ∧ path = "x/b".toList then
    .data ⟨"x/b".toList, "/g/x/b".toList, ["c".toList]⟩
  else if cwd = "/g".toList ∧ path = "c".toList then .data ⟨"c".toList, "/g/c".toList, []⟩
  else if cwd = "/g/x".toList ∧ path = "c".toList then .data ⟨"c".toList, "/g/x/c".toList, []⟩
  else if path = "loop".toList then .data ⟨path, "/g/loop".toList, ["loop".toList]⟩
  else if path = "bad".toList then .raises
  else .ioError

def exDir (p : Str) : Str := if p = "/g/x/b".toList then "/g/x".toList else if p = "/g/x/c".toList then "/g/x".toList
  else "/g".toList

/-- The layers of the example. -/
example : load exRead exDir 5 ⟨"a".toList, "/g/a".toList, ["x/b".toList, "gone".toList, "c".toList]⟩ none ⟨[], "/".toList⟩ =
    .ok ⟨[⟨"a".toList, "/g/a".toList, none, ["x/b".toList, "c".toList], [("x/b".toList, none), ("c".toList, none)]⟩,
      ⟨"x/b".toList, "/g/x/b".toList, some 0, ["c".toList], [("c".toList, none)]⟩,
      ⟨"c".toList, "/g/x/c".toList, some 1, [], []⟩,
      ⟨"c".toList, "/g/c".toList, some 0, [], []⟩], "/".toList⟩ := by decide +kernel

/-- A file referencing itself. -/
example : ∀ fuel, load exRead exDir fuel ⟨"loop".toList, "/g/loop".toList, ["loop".toList]⟩ none ⟨[], "/".toList⟩ =
    .running := by
  have hr : Refers exRead exDir ⟨"loop".toList, "/g/loop".toList, ["loop".toList]⟩
      ⟨"loop".toList, "/g/loop".toList, ["loop".toList]⟩ := ⟨_, List.mem_cons_self .., by decide +kernel⟩
  intro fuel
  refine C49_cycle _ _ _ .refl hr .refl ?_ fuel _ _
  intro e he
  have key : ∀ d e, RefersStar exRead exDir d e → d = ⟨"loop".toList, "/g/loop".toList, ["loop".toList]⟩ →
      e = ⟨"loop".toList, "/g/loop".toList, ["loop".toList]⟩ := by
    intro d e h
    induction h with
    | refl => exact id
    | step h1 h2 ih =>
      intro hd
      subst hd
      apply ih
      obtain ⟨r, hr, he⟩ := h1
      simp only [List.mem_singleton] at hr
      subst hr
      rw [show exRead (exDir "/g/loop".toList) "loop".toList =
        .data ⟨"loop".toList, "/g/loop".toList, ["loop".toList]⟩ by decide +kernel] at he
      cases he; rfl
  have := key _ _ he rfl
  subst this
  intro r hr
  simp only [List.mem_singleton] at hr
  subst hr
  decide +kernel

/-- C49, violated for files which are no valid data: the exception leaves the process in the
directory of the referring file. -/
theorem C49_cwd_violation : ∃ (read : Str → Str → Loaded) (dirname : Str → Str) (d : FileData) (st st' : State),
    load read dirname 5 d none st = .raised st' ∧ st'.cwd ≠ st.cwd :=
  ⟨exRead, exDir, ⟨"a".toList, "/g/a".toList, ["bad".toList]⟩, ⟨[], "/".toList⟩,
    ⟨[⟨"a".toList, "/g/a".toList, none, ["bad".toList], [("bad".toList, none)]⟩], "/g".toList⟩,
    by decide +kernel, by decide +kernel⟩

/-! ## C48 -/

theorem above_range {layers : List LRec} (hp : ParentsFirst layers) {i j : Nat} (h : LayerAbove layers i j)
    (hi : i < layers.length) : j ≤ i ∧ j < layers.length := by
  induction h with
  | self => exact ⟨Nat.le_refl _, hi⟩
  | up h1 h2 _ ih =>
    have := hp _ _ _ h1 h2
    obtain ⟨a, b⟩ := ih (by omega)
    exact ⟨by omega, b⟩

/-- C48: the check says yes exactly when the file is that of the layer it starts from or of a layer
above it; it always ends. -/
theorem C48_check (layers : List LRec) (hp : ParentsFirst layers) (path : Str) (i : Nat)
    (hi : i < layers.length) (fuel : Nat) (hf : i + 1 < fuel) :
    ∃ b, checkCycle layers path fuel (some i) = some b ∧
      (b = true ↔ ∃ (j : Nat) (l : LRec), LayerAbove layers i j ∧ layers[j]? = some l ∧ l.real = path) := by
  induction fuel generalizing i with
  | zero => omega
  | succ fuel ih =>
    have hl : layers[i]? = some layers[i] := List.getElem?_eq_getElem hi
    rw [checkCycle, hl]
    simp only
    by_cases he : layers[i].real = path
    · rw [if_pos he]
      exact ⟨true, rfl, fun _ => ⟨i, _, .self, hl, he⟩, fun _ => rfl⟩
    · rw [if_neg he]
      cases hpar : layers[i].parent with
      | none =>
        refine ⟨false, ?_, nofun, ?_⟩
        · cases fuel with
          | zero => omega
          | succ => rfl
        · rintro ⟨j, l, h1, h2, h3⟩
          cases h1 with
          | self => rw [hl] at h2; cases h2; exact absurd h3 he
          | up g1 g2 _ => rw [hl] at g1; cases g1; rw [hpar] at g2; cases g2
      | some k =>
        have hk := hp i _ k hl hpar
        obtain ⟨b, h1, h2⟩ := ih k (by omega) (by omega)
        refine ⟨b, h1, h2.trans ⟨?_, ?_⟩⟩
        · rintro ⟨j, l, g1, g2⟩
          exact ⟨j, l, .up hl hpar g1, g2⟩
        · rintro ⟨j, l, g1, g2, g3⟩
          cases g1 with
          | self => rw [hl] at g2; cases g2; exact absurd g3 he
          | up q1 q2 q3 =>
            rw [hl] at q1; cases q1; rw [hpar] at q2; cases q2
            exact ⟨j, l, q3, g2, g3⟩

/-- C48 for the layers of a loaded file. -/
theorem C48_check_loaded (fuel : Nat) (d : FileData) (cwd : Str) (st : State)
    (h : load read dirname fuel d none ⟨[], cwd⟩ = .ok st) (path : Str) (i : Nat)
    (hi : i < st.layers.length) :
    ∃ b, checkCycle st.layers path (i + 2) (some i) = some b ∧
      (b = true ↔ ∃ (j : Nat) (l : LRec), LayerAbove st.layers i j ∧ st.layers[j]? = some l ∧ l.real = path) :=
  C48_check st.layers (C49_parents fuel d cwd st h).1 path i hi _ (by omega)

/-! ## C65 -/

theorem rootLoop_spec (layers : List LRec) (hp : ParentsFirst layers) (i : Nat) (hi : i < layers.length)
    (fuel : Nat) (hf : i + 1 < fuel) (root : Option Nat) :
    ∃ (j : Nat) (l : LRec), rootLoop layers fuel (some i) root = some (some j) ∧ LayerAbove layers i j ∧
      layers[j]? = some l ∧ l.parent = none := by
  induction fuel generalizing i root with
  | zero => omega
  | succ fuel ih =>
    have hl : layers[i]? = some layers[i] := List.getElem?_eq_getElem hi
    rw [rootLoop, hl]
    simp only
    cases hpar : layers[i].parent with
    | none =>
      refine ⟨i, _, ?_, .self, hl, hpar⟩
      cases fuel with
      | zero => omega
      | succ => rfl
    | some k =>
      have hk := hp i _ k hl hpar
      obtain ⟨j, l, h1, h2, h3⟩ := ih k (by omega) (by omega) (some i)
      exact ⟨j, l, h1, .up hl hpar h2, h3⟩

/-- C65: the root parent of a layer is the layer without parent above it; a layer without parent has
no root parent. -/
theorem C65_root_parent (layers : List LRec) (hp : ParentsFirst layers) (i : Nat) (l : LRec)
    (hl : layers[i]? = some l) (fuel : Nat) (hf : i + 1 < fuel) :
    (l.parent = none → rootParent layers fuel i = some none) ∧
    (l.parent ≠ none → ∃ (j : Nat) (r : LRec), rootParent layers fuel i = some (some j) ∧ j ≠ i ∧
      LayerAbove layers i j ∧ layers[j]? = some r ∧ r.parent = none) := by
  unfold rootParent
  rw [hl]
  simp only
  have hi : i < layers.length := (List.getElem?_eq_some_iff.1 hl).1
  constructor
  · intro h
    rw [h]
    cases fuel with
    | zero => omega
    | succ => rfl
  · intro h
    cases hpar : l.parent with
    | none => exact absurd hpar h
    | some k =>
      have hk := hp i _ k hl hpar
      obtain ⟨j, r, h1, h2, h3⟩ := rootLoop_spec layers hp k (by omega) fuel (by omega) none
      have := (above_range hp h2 (by omega)).1
      exact ⟨j, r, h1, by omega, .up hl hpar h2, h3⟩

/-- Three layers in a line. -/
example :
    let ls : List LRec := [⟨[], "a".toList, none, [], []⟩, ⟨[], "b".toList, some 0, [], []⟩,
      ⟨[], "c".toList, some 1, [], []⟩]
    checkCycle ls "a".toList 4 (some 2) = some true ∧ checkCycle ls "d".toList 4 (some 2) = some false ∧
    rootParent ls 4 2 = some (some 0) ∧ rootParent ls 4 0 = some none := by decide +kernel

end Nxt.Props
