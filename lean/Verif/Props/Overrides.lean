import Verif.Spec.Overrides
import Verif.Lemmas.Layer
import Verif.Props.Layer
/-!
# C139: mute and solo overrides of a whole stage
-/
namespace Nxt.Props
open Dict Layer Spec Overrides

namespace OverCells
variable {K : Type} [DecidableEq K]

theorem ups_fuel {layers : List (ORec K)} (hp : ∀ (i : Nat) (l : ORec K) (p : Nat), layers[i]? = some l → l.parent = some p → p < i) :
    ∀ (f g i : Nat), i < f → i < g → ups layers f i = ups layers g i := by
  intro f
  induction f with
  | zero => intro g i h; omega
  | succ f ih =>
    intro g i h1 h2
    match g, h2 with
    | g + 1, h2 =>
      unfold ups
      cases hl : layers[i]? with
      | none => rfl
      | some l =>
        cases hpar : l.parent with
        | none => simp [hpar]
        | some p =>
          have := hp i l p hl hpar
          simp only [hpar]
          rw [ih g p (by omega) (by omega)]

/-- The walk up, with the steps of the tree. -/
theorem ups_none {s : OStage K} {i : Nat} (l : ORec K) (hl : s.layers[i]? = some l) (hpar : l.parent = none) :
    ups s.layers s.layers.length i = [i] := by
  have hi : i < s.layers.length := (List.getElem?_eq_some_iff.1 hl).1
  obtain ⟨n, hn⟩ : ∃ n, s.layers.length = n + 1 := ⟨s.layers.length - 1, by omega⟩
  rw [hn, ups, hl]
  simp [hpar]

theorem ups_some {s : OStage K} (hp : ∀ (i : Nat) (l : ORec K) (p : Nat), s.layers[i]? = some l → l.parent = some p → p < i) {i p : Nat}
    (l : ORec K) (hl : s.layers[i]? = some l) (hpar : l.parent = some p) :
    ups s.layers s.layers.length i = i :: ups s.layers s.layers.length p := by
  have hi : i < s.layers.length := (List.getElem?_eq_some_iff.1 hl).1
  obtain ⟨n, hn⟩ : ∃ n, s.layers.length = n + 1 := ⟨s.layers.length - 1, by omega⟩
  have hlt := hp i l p hl hpar
  have h1 : ups s.layers (n + 1) i = i :: ups s.layers n p := by
    rw [ups, hl]
    simp [hpar]
  rw [hn, h1, ups_fuel hp n (n + 1) p (by omega) (by omega)]

theorem ups_out {s : OStage K} {i : Nat} (h : s.layers[i]? = none) : ups s.layers s.layers.length i = [] := by
  cases hn : s.layers.length with
  | zero => rfl
  | succ n => rw [ups, h]

/-- The walk from `j` passes `i` and goes on like the walk from `i`. -/
theorem ups_split {s : OStage K} (hp : ∀ (i : Nat) (l : ORec K) (p : Nat), s.layers[i]? = some l → l.parent = some p → p < i) {j i : Nat}
    (h : UpTo s.layers j i) :
    ∃ pre, ups s.layers s.layers.length j = pre ++ ups s.layers s.layers.length i := by
  induction h with
  | self i l hl => exact ⟨[], rfl⟩
  | step j p i l hl hpar hu ih =>
    obtain ⟨pre, h⟩ := ih
    exact ⟨j :: pre, by rw [ups_some hp l hl hpar, h]; rfl⟩

theorem mem_ups {s : OStage K} (hp : ∀ (i : Nat) (l : ORec K) (p : Nat), s.layers[i]? = some l → l.parent = some p → p < i) (i : Nat) :
    ∀ j, i ∈ ups s.layers s.layers.length j ↔ UpTo s.layers j i := by
  intro j
  induction j using Nat.strongRecOn with
  | _ j ih =>
    cases hl : s.layers[j]? with
    | none =>
      rw [ups_out hl]
      constructor
      · intro h; cases h
      · intro h
        cases h with
        | self _ l hl' => rw [hl] at hl'; cases hl'
        | step _ p _ l hl' _ _ => rw [hl] at hl'; cases hl'
    | some l =>
      cases hpar : l.parent with
      | none =>
        rw [ups_none l hl hpar]
        constructor
        · intro h
          rw [List.mem_singleton] at h
          subst h
          exact .self _ l hl
        · intro h
          cases h with
          | self _ _ _ => exact List.mem_singleton.2 rfl
          | step _ p _ l' hl' hpar' _ =>
            rw [hl] at hl'
            cases hl'
            rw [hpar] at hpar'
            cases hpar'
      | some p =>
        rw [ups_some hp l hl hpar]
        have := ih p (hp j l p hl hpar)
        constructor
        · intro h
          rcases List.mem_cons.1 h with h | h
          · subst h
            exact .self _ l hl
          · exact .step j p i l hl hpar (this.1 h)
        · intro h
          cases h with
          | self _ _ _ => exact List.mem_cons_self
          | step _ p' _ l' hl' hpar' hu =>
            rw [hl] at hl'
            cases hl'
            rw [hpar] at hpar'
            cases hpar'
            exact List.mem_cons_of_mem _ (this.2 hu)

/-- The small dict which counts for a path seen from a layer. -/
def cellOf (s : OStage K) (i : Nat) (k : K) : Option Nat :=
  ((ups s.layers s.layers.length i).reverse.findSome? (fun j => get? k (tableAt s.layers j)))

theorem get?_comped {s : OStage K} (h : WellKept s) (i : Nat) (k : K) : get? k (comped s i) = cellOf s i k := by
  unfold comped cellOf
  rw [get?_compedOvers]
  · rw [← List.map_reverse, List.findSome?_map]
    rfl
  · intro t ht
    obtain ⟨j, _, rfl⟩ := List.mem_map.1 ht
    unfold tableAt
    cases hl : s.layers[j]? with
    | none => exact ok_nil
    | some l => exact h.tables j l hl

theorem cellOf_none {s : OStage K} {i : Nat} (l : ORec K) (hl : s.layers[i]? = some l) (hpar : l.parent = none) (k : K) :
    cellOf s i k = get? k l.overs := by
  unfold cellOf
  rw [ups_none l hl hpar]
  simp only [List.reverse_cons, List.reverse_nil, List.nil_append, List.findSome?_cons, List.findSome?_nil]
  have : tableAt s.layers i = l.overs := by unfold tableAt; rw [hl]
  rw [this]
  cases get? k l.overs <;> rfl

theorem cellOf_some {s : OStage K} (hp : ∀ (i : Nat) (l : ORec K) (p : Nat), s.layers[i]? = some l → l.parent = some p → p < i) {i p : Nat}
    (l : ORec K) (hl : s.layers[i]? = some l) (hpar : l.parent = some p) (k : K) :
    cellOf s i k = (cellOf s p k).or (get? k l.overs) := by
  unfold cellOf
  rw [ups_some hp l hl hpar]
  rw [List.reverse_cons, List.findSome?_append]
  have : tableAt s.layers i = l.overs := by unfold tableAt; rw [hl]
  simp only [List.findSome?_cons, List.findSome?_nil, this]
  congr 1
  cases get? k l.overs <;> rfl

theorem cellOf_out {s : OStage K} {i : Nat} (h : s.layers[i]? = none) (k : K) : cellOf s i k = none := by
  unfold cellOf
  rw [ups_out h]
  rfl

/-- The small dict which counts is one of the table of a layer at or above. -/
theorem cellOf_mem {s : OStage K} (h : WellKept s) (k : K) (c : Nat) :
    ∀ i, cellOf s i k = some c → ∃ (j : Nat) (l : ORec K), UpTo s.layers i j ∧ s.layers[j]? = some l ∧ get? k l.overs = some c := by
  intro i hc
  unfold cellOf at hc
  obtain ⟨j, hj, hg⟩ := List.exists_of_findSome?_eq_some hc
  rw [List.mem_reverse, mem_ups h.parents] at hj
  unfold tableAt at hg
  cases hl : s.layers[j]? with
  | none => rw [hl] at hg; cases hg
  | some l => rw [hl] at hg; exact ⟨j, l, hj, hl, hg⟩

theorem cellOf_none_of {s : OStage K} (h : WellKept s) (k : K) (i : Nat) (hn : cellOf s i k = none) :
    ∀ (j : Nat) (l : ORec K), UpTo s.layers i j → s.layers[j]? = some l → get? k l.overs = none := by
  intro j l hu hl
  unfold cellOf at hn
  rw [List.findSome?_eq_none_iff] at hn
  have := hn j (by rw [List.mem_reverse, mem_ups h.parents]; exact hu)
  unfold tableAt at this
  rw [hl] at this
  exact this

theorem said_iff {s : OStage K} (h : WellKept s) (k : K) (i : Nat) :
    SaidAbove s i k ↔ cellOf s i k ≠ none := by
  constructor
  · rintro ⟨j, o, hu, l, c, hl, hg, _⟩ hn
    rw [cellOf_none_of h k i hn j l hu hl] at hg
    cases hg
  · intro hn
    cases hc : cellOf s i k with
    | none => exact absurd hc hn
    | some c =>
      obtain ⟨j, l, hu, hl, hg⟩ := cellOf_mem h k c i hc
      have hlt := h.cells j l k c hl hg
      exact ⟨j, s.heap[c], hu, l, c, hl, hg, List.getElem?_eq_getElem hlt⟩

/-- The layers with the table of one replaced. -/
def putTable (s : OStage K) (i : Nat) (t : Dict K Nat) (heap : List Over) : OStage K :=
  { layers := s.layers.modify i (fun l => { l with overs := t })
    heap := heap }

theorem put_get (s : OStage K) (i : Nat) (t : Dict K Nat) (heap : List Over) (j : Nat) :
    (putTable s i t heap).layers[j]? =
      (s.layers[j]?).map (fun l => if i = j then { l with overs := t } else l) := by
  unfold putTable
  simp only [List.getElem?_modify]
  cases s.layers[j]? <;> by_cases h : i = j <;> simp [h]

/-- The new cell of the setter, and the heap after it. -/
def newCell (s : OStage K) (i : Nat) (fp : K) : Nat := (cellOf s i fp).getD s.heap.length

def newHeap (s : OStage K) (i : Nat) (fp : K) (f : Over → Over) : List Over :=
  match cellOf s i fp with
  | some c => s.heap.modify c f
  | none => s.heap ++ [f {}]

theorem setOver_eq {s : OStage K} (h : WellKept s) (i : Nat) (fp : K) (f : Over → Over) :
    setOver s i fp f
      = putTable s i (Dict.set fp (newCell s i fp) (comped s i)) (newHeap s i fp f) := by
  unfold setOver newCell newHeap putTable
  simp only [get?_comped h]
  cases cellOf s i fp <;> rfl

theorem upTo_put {s : OStage K} {i : Nat} {t : Dict K Nat} {heap : List Over} {a b : Nat} :
    UpTo (putTable s i t heap).layers a b ↔ UpTo s.layers a b := by
  constructor
  · intro h
    induction h with
    | self a l hl =>
      rw [put_get] at hl
      obtain ⟨l0, hl0, rfl⟩ := Option.map_eq_some_iff.1 hl
      exact .self a l0 hl0
    | step a p b l hl hpar _ ih =>
      rw [put_get] at hl
      obtain ⟨l0, hl0, rfl⟩ := Option.map_eq_some_iff.1 hl
      refine .step a p b l0 hl0 ?_ ih
      by_cases he : i = a
      · rw [if_pos he] at hpar; exact hpar
      · rw [if_neg he] at hpar; exact hpar
  · intro h
    induction h with
    | self a l hl =>
      exact .self a _ (by rw [put_get, hl]; rfl)
    | step a p b l hl hpar _ ih =>
      refine .step a p b _ (by rw [put_get, hl]; rfl) ?_ ih
      by_cases he : i = a <;> simp [he, hpar]

theorem put_parents {s : OStage K} (hp : ∀ (i : Nat) (l : ORec K) (p : Nat), s.layers[i]? = some l → l.parent = some p → p < i)
    (i : Nat) (t : Dict K Nat) (heap : List Over) :
    ∀ (j : Nat) (l : ORec K) (p : Nat), (putTable s i t heap).layers[j]? = some l → l.parent = some p → p < j := by
  intro j l p hl hpar
  rw [put_get] at hl
  obtain ⟨l0, hl0, rfl⟩ := Option.map_eq_some_iff.1 hl
  refine hp j l0 p hl0 ?_
  by_cases he : i = j
  · rw [if_pos he] at hpar; exact hpar
  · rw [if_neg he] at hpar; exact hpar

/-- Which small dict counts after the setter. -/
theorem cellOf_set {s : OStage K} (h : WellKept s) (i : Nat) (fp k : K) (f : Over → Over)
    [∀ a b, Decidable (UpTo s.layers a b)] :
    ∀ j, cellOf (setOver s i fp f) j k
      = if k = fp ∧ UpTo s.layers j i then some (newCell s i fp) else cellOf s j k := by
  rw [setOver_eq h]
  intro j
  induction j using Nat.strongRecOn with
  | _ j ih =>
    generalize ht : Dict.set fp (newCell s i fp) (comped s i) = t at ih ⊢
    generalize newHeap s i fp f = heap at ih ⊢
    have htab : get? k t = if k = fp then some (newCell s i fp) else cellOf s i k := by
      rw [← ht, get?_set, get?_comped h]
    cases hl : s.layers[j]? with
    | none =>
      rw [cellOf_out hl, cellOf_out (by rw [put_get, hl]; rfl)]
      rw [if_neg]
      rintro ⟨_, hu⟩
      cases hu with
      | self _ l hl' => rw [hl] at hl'; cases hl'
      | step _ p _ l hl' _ _ => rw [hl] at hl'; cases hl'
    | some l =>
      have hl' : (putTable s i t heap).layers[j]? = some (if i = j then { l with overs := t } else l) := by
        rw [put_get, hl]; rfl
      cases hpar : l.parent with
      | none =>
        have hu : UpTo s.layers j i ↔ j = i := by
          constructor
          · intro hu
            cases hu with
            | self _ _ _ => rfl
            | step _ p _ l2 hl2 hpar2 _ =>
              rw [hl] at hl2
              cases hl2
              rw [hpar] at hpar2
              cases hpar2
          · rintro rfl; exact .self _ l hl
        rw [cellOf_none _ hl' (by by_cases he : i = j <;> simp [he, hpar]), cellOf_none _ hl hpar]
        by_cases he : i = j
        · rw [if_pos he]
          simp only [htab]
          subst he
          rw [cellOf_none _ hl hpar]
          by_cases hk : k = fp
          · rw [if_pos hk, if_pos ⟨hk, hu.2 rfl⟩]
          · rw [if_neg hk, if_neg (fun h => hk h.1)]
        · rw [if_neg he, if_neg]
          rintro ⟨_, h2⟩
          exact he (hu.1 h2).symm
      | some p =>
        have hlt := h.parents j l p hl hpar
        have hu : UpTo s.layers j i ↔ j = i ∨ UpTo s.layers p i := by
          constructor
          · intro hu
            cases hu with
            | self _ _ _ => exact .inl rfl
            | step _ p2 _ l2 hl2 hpar2 hu =>
              rw [hl] at hl2
              cases hl2
              rw [hpar] at hpar2
              cases hpar2
              exact .inr hu
          · rintro (rfl | hu)
            · exact .self _ l hl
            · exact .step j p i l hl hpar hu
        rw [cellOf_some (put_parents h.parents i t heap) _ hl'
          (show _ = some p by by_cases he : i = j <;> simp [he, hpar]) k, ih p hlt,
          cellOf_some h.parents l hl hpar k]
        by_cases he : i = j
        · subst he
          have hnp : ¬ UpTo s.layers p i := by
            intro hx
            have key : ∀ a b, UpTo s.layers a b → b ≤ a := by
              intro a b hab
              induction hab with
              | self => exact Nat.le_refl _
              | step a q b l3 hl3 hp3 _ ih3 =>
                have := h.parents a l3 q hl3 hp3
                omega
            have := key p i hx
            omega
          rw [if_neg (fun hx => hnp hx.2)]
          rw [if_pos rfl]
          simp only [htab]
          have hsome := cellOf_some h.parents l hl hpar k
          by_cases hk : k = fp
          · subst hk
            rw [if_pos rfl, if_pos ⟨rfl, hu.2 (.inl rfl)⟩]
            cases hc : cellOf s p k with
            | none => simp
            | some c =>
              rw [hc] at hsome
              simp [newCell, hsome]
          · rw [if_neg hk, if_neg (fun h => hk h.1), hsome]
            cases cellOf s p k <;> rfl
        · rw [if_neg he]
          by_cases hup : k = fp ∧ UpTo s.layers p i
          · rw [if_pos hup, if_pos ⟨hup.1, hu.2 (.inr hup.2)⟩]
            rfl
          · rw [if_neg hup, if_neg]
            rintro ⟨h1, h2⟩
            rcases hu.1 h2 with h3 | h3
            · exact he h3.symm
            · exact hup ⟨h1, h3⟩

theorem overFor_eq {s : OStage K} (h : WellKept s) (i : Nat) (k : K) :
    overFor s i k = match cellOf s i k with
      | none => {}
      | some c => (s.heap[c]?).getD {} := by
  unfold overFor
  rw [get?_comped h]
  cases cellOf s i k <;> rfl

theorem cell_lt {s : OStage K} (h : WellKept s) {i : Nat} {k : K} {c : Nat} (hc : cellOf s i k = some c) :
    c < s.heap.length := by
  obtain ⟨j, l, _, hl, hg⟩ := cellOf_mem h k c i hc
  exact h.cells j l k c hl hg

theorem newHeap_new {s : OStage K} (h : WellKept s) (i : Nat) (fp : K) (f : Over → Over) :
    (newHeap s i fp f)[newCell s i fp]? = some (f (overFor s i fp)) := by
  rw [overFor_eq h]
  unfold newHeap newCell
  cases hc : cellOf s i fp with
  | none => simp
  | some c =>
    have hlt := cell_lt h hc
    simp only [Option.getD_some, List.getElem?_modify, if_pos]
    rw [List.getElem?_eq_getElem hlt]
    rfl

theorem newHeap_old {s : OStage K} (i : Nat) (fp : K) (f : Over → Over) {c : Nat} (hlt : c < s.heap.length)
    (hne : c ≠ newCell s i fp) : (newHeap s i fp f)[c]? = s.heap[c]? := by
  unfold newHeap
  unfold newCell at hne
  cases hc : cellOf s i fp with
  | none => simp only []; rw [List.getElem?_append_left hlt]
  | some c' =>
    rw [hc] at hne
    simp only [Option.getD_some] at hne
    have hne' : ¬ c' = c := fun e => hne e.symm
    simp only [List.getElem?_modify, if_neg hne']
    cases s.heap[c]? <;> rfl

theorem newHeap_length (s : OStage K) (i : Nat) (fp : K) (f : Over → Over) :
    s.heap.length ≤ (newHeap s i fp f).length := by
  unfold newHeap
  cases cellOf s i fp <;> simp

theorem newCell_lt {s : OStage K} (h : WellKept s) (i : Nat) (fp : K) (f : Over → Over) :
    newCell s i fp < (newHeap s i fp f).length := by
  have := newHeap_new h i fp f
  exact (List.getElem?_eq_some_iff.1 this).1

/-- The small dict of the setter is not one of another path. -/
theorem newCell_ne {s : OStage K} (h : WellKept s) {i j : Nat} {fp k : K} {c : Nat} (hk : k ≠ fp)
    (hc : cellOf s j k = some c) : c ≠ newCell s i fp := by
  intro e
  have hlt := cell_lt h hc
  unfold newCell at e
  cases hc' : cellOf s i fp with
  | none => rw [hc'] at e; simp only [Option.getD_none] at e; omega
  | some c' =>
    rw [hc'] at e
    simp only [Option.getD_some] at e
    subst e
    obtain ⟨_, l, _, hl, hg⟩ := cellOf_mem h k c j hc
    obtain ⟨_, m, _, hm, hg'⟩ := cellOf_mem h fp c i hc'
    exact hk (h.onePath _ _ l m k fp c hl hm hg hg')

/-- Every entry after the setter was one before, or is the new one. -/
theorem set_entries {s : OStage K} (h : WellKept s) (i : Nat) (fp : K) (f : Over → Over) (j : Nat) (l : ORec K)
    (k : K) (c : Nat) (hl : (setOver s i fp f).layers[j]? = some l) (hg : get? k l.overs = some c) :
    (∃ (j' : Nat) (m : ORec K), s.layers[j']? = some m ∧ get? k m.overs = some c) ∨ (k = fp ∧ c = s.heap.length) := by
  rw [setOver_eq h, put_get] at hl
  obtain ⟨l0, hl0, rfl⟩ := Option.map_eq_some_iff.1 hl
  by_cases he : i = j
  · rw [if_pos he] at hg
    simp only [get?_set, get?_comped h] at hg
    by_cases hk : k = fp
    · rw [if_pos hk] at hg
      unfold newCell at hg
      cases hc : cellOf s i fp with
      | none =>
        rw [hc] at hg
        exact .inr ⟨hk, (Option.some.inj hg).symm⟩
      | some c' =>
        rw [hc] at hg
        obtain ⟨j', m, _, hm, hg'⟩ := cellOf_mem h fp c' i hc
        refine .inl ⟨j', m, hm, ?_⟩
        rw [hk, hg']
        exact hg
    · rw [if_neg hk] at hg
      obtain ⟨j', m, _, hm, hg'⟩ := cellOf_mem h k c i hg
      exact .inl ⟨j', m, hm, hg'⟩
  · rw [if_neg he] at hg
    exact .inl ⟨j, l0, hl0, hg⟩

theorem set_kept {s : OStage K} (h : WellKept s) (i : Nat) (fp : K) (f : Over → Over) :
    WellKept (setOver s i fp f) := by
  refine ⟨?_, ?_, ?_, ?_⟩
  · rw [setOver_eq h]
    exact put_parents h.parents _ _ _
  · intro j l hl
    rw [setOver_eq h, put_get] at hl
    obtain ⟨l0, hl0, rfl⟩ := Option.map_eq_some_iff.1 hl
    by_cases he : i = j
    · rw [if_pos he]
      exact ok_set (ok_compedOvers _) _ _
    · rw [if_neg he]
      exact h.tables j l0 hl0
  · intro j l k c hl hg
    have hheap : (setOver s i fp f).heap = newHeap s i fp f := by rw [setOver_eq h]; rfl
    rw [hheap]
    have hle := newHeap_length s i fp f
    rcases set_entries h i fp f j l k c hl hg with ⟨j', m, hm, hg'⟩ | ⟨hk, hc⟩
    · have := h.cells j' m k c hm hg'
      omega
    · rw [setOver_eq h, put_get] at hl
      obtain ⟨l0, hl0, rfl⟩ := Option.map_eq_some_iff.1 hl
      by_cases he : i = j
      · rw [if_pos he] at hg
        simp only [get?_set, hk, if_true] at hg
        rw [← Option.some.inj hg]
        exact newCell_lt h i fp f
      · rw [if_neg he] at hg
        have := h.cells j l0 k c hl0 hg
        omega
  · intro a b l m k k' c hl hm hg hg'
    rcases set_entries h i fp f a l k c hl hg with ⟨a', l', hl', hga⟩ | ⟨hk, hc⟩ <;>
    rcases set_entries h i fp f b m k' c hm hg' with ⟨b', m', hm', hgb⟩ | ⟨hk', hc'⟩
    · exact h.onePath a' b' l' m' k k' c hl' hm' hga hgb
    · have := h.cells a' l' k c hl' hga
      omega
    · have := h.cells b' m' k' c hm' hgb
      omega
    · rw [hk, hk']

/-- What is seen after the setter. -/
theorem overFor_set_other {s : OStage K} (h : WellKept s) (i : Nat) (fp : K) (f : Over → Over) {k : K} (hk : k ≠ fp)
    (j : Nat) : overFor (setOver s i fp f) j k = overFor s j k := by
  classical
  rw [overFor_eq (set_kept h i fp f), overFor_eq h, cellOf_set h, if_neg (fun e => hk e.1)]
  cases hc : cellOf s j k with
  | none => rfl
  | some c =>
    have hheap : (setOver s i fp f).heap = newHeap s i fp f := by rw [setOver_eq h]; rfl
    simp only [hheap]
    rw [newHeap_old i fp f (cell_lt h hc) (newCell_ne h hk hc)]

theorem overFor_set_below {s : OStage K} (h : WellKept s) (i : Nat) (fp : K) (f : Over → Over) (j : Nat)
    (hu : UpTo s.layers j i) : overFor (setOver s i fp f) j fp = f (overFor s i fp) := by
  classical
  rw [overFor_eq (set_kept h i fp f), cellOf_set h, if_pos ⟨rfl, hu⟩]
  have hheap : (setOver s i fp f).heap = newHeap s i fp f := by rw [setOver_eq h]; rfl
  simp only [hheap]
  rw [newHeap_new h]
  rfl

/-- Beside the layer: the small dict is the same one, or nothing changes. -/
theorem overFor_set_beside {s : OStage K} (h : WellKept s) (i : Nat) (fp : K) (f : Over → Over) (j : Nat)
    (hu : ¬ UpTo s.layers j i) :
    overFor (setOver s i fp f) j fp
      = if (cellOf s j fp).isSome ∧ cellOf s j fp = cellOf s i fp then f (overFor s j fp) else overFor s j fp := by
  classical
  rw [overFor_eq (set_kept h i fp f), cellOf_set h, if_neg (fun e => hu e.2)]
  have hheap : (setOver s i fp f).heap = newHeap s i fp f := by rw [setOver_eq h]; rfl
  simp only [hheap]
  cases hc : cellOf s j fp with
  | none =>
    rw [if_neg (by simp), overFor_eq h, hc]
  | some c =>
    by_cases hs : cellOf s i fp = some c
    · rw [if_pos ⟨rfl, hs.symm⟩]
      have hn : newCell s i fp = c := by unfold newCell; rw [hs]; rfl
      have := newHeap_new h i fp f
      rw [hn] at this
      simp only [this, Option.getD_some]
      rw [overFor_eq h, overFor_eq h, hc, hs]
    · rw [if_neg (fun e => hs e.2.symm)]
      have hne : c ≠ newCell s i fp := by
        intro e
        unfold newCell at e
        have hlt := cell_lt h hc
        cases hi : cellOf s i fp with
        | none => rw [hi] at e; simp only [Option.getD_none] at e; omega
        | some c' =>
          rw [hi] at e
          simp only [Option.getD_some] at e
          subst e
          exact hs hi
      simp only []
      rw [newHeap_old i fp f (cell_lt h hc) hne, overFor_eq h, hc]

theorem layer_set {s : OStage K} (h : WellKept s) (i : Nat) (fp : K) (f : Over → Over) (j : Nat) (l : ORec K)
    (hl : s.layers[j]? = some l) :
    ∃ l', (setOver s i fp f).layers[j]? = some l' ∧ l'.path = l.path ∧ l'.parent = l.parent ∧
      l'.mute = l.mute ∧ l'.solo = l.solo := by
  rw [setOver_eq h, put_get, hl]
  refine ⟨_, rfl, ?_⟩
  by_cases he : i = j <;> simp [he]

theorem muted_set {s : OStage K} (h : WellKept s) (i : Nat) (fp : K) (f : Over → Over) (j : Nat) (l : ORec K)
    (hl : s.layers[j]? = some l) :
    isMuted (setOver s i fp f) j = (overFor (setOver s i fp f) j l.path).mute.getD l.mute ∧
    isSoloed (setOver s i fp f) j = (overFor (setOver s i fp f) j l.path).solo.getD l.solo := by
  obtain ⟨l', hl', e1, e2, e3, e4⟩ := layer_set h i fp f j l hl
  unfold isMuted isSoloed
  rw [hl']
  simp only [e1, e3, e4, and_self]

theorem muted_eq {s : OStage K} (j : Nat) (l : ORec K) (hl : s.layers[j]? = some l) :
    isMuted s j = (overFor s j l.path).mute.getD l.mute ∧ isSoloed s j = (overFor s j l.path).solo.getD l.solo := by
  unfold isMuted isSoloed
  rw [hl]
  exact ⟨rfl, rfl⟩

/-! ### Saving and loading -/

/-- What the table of a layer says. -/
def valAt (s : OStage K) (i : Nat) (k : K) : Option Over :=
  (get? k (tableAt s.layers i)).bind (fun c => s.heap[c]?)

theorem overFor_val {s : OStage K} (h : WellKept s) (i : Nat) (k : K) :
    overFor s i k = ((ups s.layers s.layers.length i).reverse.findSome? (fun j => valAt s j k)).getD {} := by
  rw [overFor_eq h]
  unfold cellOf
  generalize (ups s.layers s.layers.length i).reverse = js
  induction js with
  | nil => rfl
  | cons j js ih =>
    simp only [List.findSome?_cons]
    unfold valAt
    cases hg : get? k (tableAt s.layers j) with
    | none => simp only [Option.bind_none]; exact ih
    | some c =>
      have hlt : c < s.heap.length := by
        unfold tableAt at hg
        cases hl : s.layers[j]? with
        | none => rw [hl] at hg; cases hg
        | some l => rw [hl] at hg; exact h.cells j l k c hl hg
      simp [List.getElem?_eq_getElem hlt]

theorem keys_placed (t : Dict K Over) : ∀ n, keys (placed n t) = keys t := by
  induction t with
  | nil => intro n; rfl
  | cons e t ih =>
    intro n
    have : placed n (e :: t) = (e.1, n) :: placed (n + 1) t := by
      simp [placed, List.zipIdx_cons]
    rw [this, keys_cons, ih]
    rfl

theorem get?_placed (k : K) (t : Dict K Over) : ∀ (pre post : List Over),
    (get? k (placed pre.length t)).bind (fun c => (pre ++ t.map Prod.snd ++ post)[c]?) = get? k t := by
  induction t with
  | nil => intro pre post; rfl
  | cons e t ih =>
    intro pre post
    obtain ⟨a, v⟩ := e
    have : placed pre.length ((a, v) :: t) = (a, pre.length) :: placed (pre.length + 1) t := by
      simp [placed, List.zipIdx_cons]
    rw [this]
    by_cases hk : a = k
    · subst hk
      simp [get?]
    · have ih' := ih (pre ++ [v]) post
      simp only [get?, hk, if_false]
      simpa using ih'

theorem placed_range (k : K) (c : Nat) (t : Dict K Over) : ∀ n, get? k (placed n t) = some c →
    n ≤ c ∧ c < n + t.length := by
  induction t with
  | nil => intro n h; cases h
  | cons e t ih =>
    intro n h
    obtain ⟨a, v⟩ := e
    have : placed n ((a, v) :: t) = (a, n) :: placed (n + 1) t := by
      simp [placed, List.zipIdx_cons]
    rw [this] at h
    by_cases hk : a = k
    · subst hk
      simp [get?] at h
      subst h
      simp
    · simp only [get?, hk, if_false] at h
      have := ih (n + 1) h
      simp only [List.length_cons]
      omega

theorem placed_one (k k' : K) (c : Nat) (t : Dict K Over) : ∀ n, get? k (placed n t) = some c →
    get? k' (placed n t) = some c → k = k' := by
  induction t with
  | nil => intro n h; cases h
  | cons e t ih =>
    intro n h h'
    obtain ⟨a, v⟩ := e
    have : placed n ((a, v) :: t) = (a, n) :: placed (n + 1) t := by
      simp [placed, List.zipIdx_cons]
    rw [this] at h h'
    by_cases hk : a = k <;> by_cases hk' : a = k'
    · rw [← hk, ← hk']
    · subst hk
      simp [get?] at h
      simp only [get?, hk', if_false] at h'
      have := placed_range k' c t (n + 1) h'
      omega
    · subst hk'
      simp [get?] at h'
      simp only [get?, hk, if_false] at h
      have := placed_range k c t (n + 1) h
      omega
    · simp only [get?, hk, if_false] at h
      simp only [get?, hk', if_false] at h'
      exact ih (n + 1) h h'

theorem loaded_kept : ∀ (data : List (K × Option Nat × Dict K Over)) (heap : List Over) (ls : List (ORec K)),
    WellKept { layers := ls, heap := heap } → (∀ e ∈ data, Ok e.2.2) →
    (∀ (i : Nat) (e : K × Option Nat × Dict K Over) (p : Nat), data[i]? = some e → e.2.1 = some p → p < ls.length + i) → WellKept (loaded data heap ls) := by
  intro data
  induction data with
  | nil => intro heap ls h _ _; exact h
  | cons e data ih =>
    intro heap ls h hok hpar
    obtain ⟨fp, par, t⟩ := e
    unfold loaded
    refine ih _ _ ?_ (fun e he => hok e (List.mem_cons_of_mem _ he)) ?_
    · have new : ∀ (i : Nat) (l : ORec K),
          (ls ++ [{ path := fp, parent := par, mute := false, solo := false, overs := placed heap.length t }])[i]? = some l →
          (ls[i]? = some l) ∨ (i = ls.length ∧
            l = { path := fp, parent := par, mute := false, solo := false, overs := placed heap.length t }) := by
        intro i l hl
        by_cases hi : i < ls.length
        · rw [List.getElem?_append_left hi] at hl
          exact .inl hl
        · have hlen := (List.getElem?_eq_some_iff.1 hl).1
          simp only [List.length_append, List.length_cons, List.length_nil] at hlen
          have : i = ls.length := by omega
          subst this
          rw [List.getElem?_append_right (Nat.le_refl _)] at hl
          simp only [Nat.sub_self, List.getElem?_cons_zero] at hl
          exact .inr ⟨rfl, (Option.some.inj hl).symm⟩
      refine ⟨?_, ?_, ?_, ?_⟩
      · intro i l p hl hp
        rcases new i l hl with hl' | ⟨hi, rfl⟩
        · exact h.parents i l p hl' hp
        · have := hpar 0 (fp, par, t) p rfl hp
          omega
      · intro i l hl
        rcases new i l hl with hl' | ⟨hi, rfl⟩
        · exact h.tables i l hl'
        · have := hok (fp, par, t) List.mem_cons_self
          unfold Ok at this ⊢
          rw [keys_placed]
          exact this
      · intro i l k c hl hg
        simp only [List.length_append, List.length_map]
        rcases new i l hl with hl' | ⟨hi, rfl⟩
        · have := h.cells i l k c hl' hg
          simp only at this
          omega
        · have := placed_range k c t heap.length hg
          omega
      · intro i j l m k k' c hl hm hg hg'
        rcases new i l hl with hl' | ⟨hi, rfl⟩ <;> rcases new j m hm with hm' | ⟨hj, rfl⟩
        · exact h.onePath i j l m k k' c hl' hm' hg hg'
        · have h1 := h.cells i l k c hl' hg
          have h2 := placed_range k' c t heap.length hg'
          simp only at h1
          omega
        · have h1 := h.cells j m k' c hm' hg'
          have h2 := placed_range k c t heap.length hg
          simp only at h1
          omega
        · exact placed_one k k' c t heap.length hg hg'
    · intro i e p he hp
      have := hpar (i + 1) e p (by rw [List.getElem?_cons_succ]; exact he) hp
      simp only [List.length_append, List.length_cons, List.length_nil]
      omega

theorem loaded_heap : ∀ (data : List (K × Option Nat × Dict K Over)) (heap : List Over) (ls : List (ORec K)),
    ∃ more, (loaded data heap ls).heap = heap ++ more := by
  intro data
  induction data with
  | nil => intro heap ls; exact ⟨[], by simp [loaded]⟩
  | cons e data ih =>
    intro heap ls
    obtain ⟨fp, par, t⟩ := e
    unfold loaded
    obtain ⟨more, h⟩ := ih (heap ++ t.map Prod.snd)
      (ls ++ [{ path := fp, parent := par, mute := false, solo := false, overs := placed heap.length t }])
    exact ⟨t.map Prod.snd ++ more, by rw [h, List.append_assoc]⟩

theorem loaded_old : ∀ (data : List (K × Option Nat × Dict K Over)) (heap : List Over) (ls : List (ORec K)) (j : Nat),
    j < ls.length → (loaded data heap ls).layers[j]? = ls[j]? := by
  intro data
  induction data with
  | nil => intro heap ls j _; rfl
  | cons e data ih =>
    intro heap ls j hj
    obtain ⟨fp, par, t⟩ := e
    unfold loaded
    rw [ih _ _ j (by simp only [List.length_append]; omega), List.getElem?_append_left hj]

theorem loaded_length : ∀ (data : List (K × Option Nat × Dict K Over)) (heap : List Over) (ls : List (ORec K)),
    (loaded data heap ls).layers.length = ls.length + data.length := by
  intro data
  induction data with
  | nil => intro heap ls; rfl
  | cons e data ih =>
    intro heap ls
    obtain ⟨fp, par, t⟩ := e
    unfold loaded
    rw [ih]
    simp only [List.length_append, List.length_cons, List.length_nil]
    omega

theorem loaded_new : ∀ (data : List (K × Option Nat × Dict K Over)) (heap : List Over) (ls : List (ORec K)) (i : Nat)
    (e : K × Option Nat × Dict K Over), data[i]? = some e →
    ∃ l, (loaded data heap ls).layers[ls.length + i]? = some l ∧ l.path = e.1 ∧ l.parent = e.2.1 ∧ l.mute = false ∧
      l.solo = false ∧ ∀ k, (get? k l.overs).bind (fun c => (loaded data heap ls).heap[c]?) = get? k e.2.2 := by
  intro data
  induction data with
  | nil => intro heap ls i e he; cases he
  | cons e0 data ih =>
    intro heap ls i e he
    obtain ⟨fp, par, t⟩ := e0
    unfold loaded
    cases i with
    | zero =>
      rw [List.getElem?_cons_zero] at he
      cases he
      refine ⟨{ path := fp, parent := par, mute := false, solo := false, overs := placed heap.length t },
        (loaded_old _ _ _ ls.length (by simp)).trans ?_, ?_⟩
      · simp
      · refine ⟨rfl, rfl, rfl, rfl, ?_⟩
        intro k
        obtain ⟨more, h⟩ := loaded_heap data (heap ++ t.map Prod.snd)
          (ls ++ [{ path := fp, parent := par, mute := false, solo := false, overs := placed heap.length t }])
        rw [h]
        exact get?_placed k t heap more
    | succ i =>
      rw [List.getElem?_cons_succ] at he
      obtain ⟨l, h⟩ := ih (heap ++ t.map Prod.snd)
        (ls ++ [{ path := fp, parent := par, mute := false, solo := false, overs := placed heap.length t }]) i e he
      refine ⟨l, ?_⟩
      simp only [List.length_append, List.length_cons, List.length_nil] at h
      rw [show ls.length + (i + 1) = ls.length + (0 + 1) + i by omega]
      exact h

theorem get?_written (s : OStage K) (h : WellKept s) (j : Nat) (l : ORec K) (hl : s.layers[j]? = some l) (k : K) :
    get? k (written s l) = valAt s j k := by
  have hc : ∀ k c, get? k l.overs = some c → c < s.heap.length := fun k c hg => h.cells j l k c hl hg
  have hok := h.tables j l hl
  unfold valAt tableAt written
  rw [hl]
  simp only []
  generalize l.overs = t at hc hok
  induction t with
  | nil => rfl
  | cons e t ih =>
    obtain ⟨a, c⟩ := e
    by_cases hk : a = k
    · subst hk
      have := hc a c (by simp [get?])
      simp [get?, List.getElem?_eq_getElem this]
    · have hok' : Ok t := (List.nodup_cons.1 hok).2
      have ha : a ∉ keys t := (List.nodup_cons.1 hok).1
      simp only [List.map_cons, get?, hk, if_false]
      refine ih ?_ hok'
      intro k2 c2 hg
      refine hc k2 c2 ?_
      have : a ≠ k2 := by
        rintro rfl
        exact ha (get?_isSome.1 (by rw [hg]; rfl))
      simp only [get?, this, if_false]
      exact hg

theorem ok_written (s : OStage K) (h : WellKept s) (j : Nat) (l : ORec K) (hl : s.layers[j]? = some l) :
    Ok (written s l) := by
  have := h.tables j l hl
  unfold Ok at this ⊢
  have e : keys (written s l) = keys l.overs := by
    simp [keys, written]
  rw [e]
  exact this

theorem reopened_layer (s : OStage K) (h : WellKept s) (j : Nat) (l : ORec K) (hl : s.layers[j]? = some l) :
    ∃ l', (reopened s).layers[j]? = some l' ∧ l'.path = l.path ∧ l'.parent = l.parent ∧ l'.mute = false ∧
      l'.solo = false ∧ ∀ k, valAt (reopened s) j k = valAt s j k := by
  obtain ⟨l', h1, h2, h3, h4, h5, h6⟩ := loaded_new (s.layers.map (fun l => (l.path, l.parent, written s l))) [] [] j
    (l.path, l.parent, written s l) (by rw [List.getElem?_map, hl]; rfl)
  have hj : (reopened s).layers[j]? = some l' := by
    rw [List.length_nil, Nat.zero_add] at h1
    exact h1
  refine ⟨l', hj, h2, h3, h4, h5, ?_⟩
  intro k
  rw [← get?_written s h j l hl k, ← h6 k]
  unfold valAt tableAt
  rw [hj]
  rfl

theorem reopened_length (s : OStage K) : (reopened s).layers.length = s.layers.length := by
  unfold reopened
  rw [loaded_length]
  simp

theorem reopened_kept (s : OStage K) (h : WellKept s) : WellKept (reopened s) := by
  refine loaded_kept _ [] [] ⟨?_, ?_, ?_, ?_⟩ ?_ ?_
  · intro i l p hl; simp at hl
  · intro i l hl; simp at hl
  · intro i l k c hl; simp at hl
  · intro i j l m k k' c hl; simp at hl
  · intro e he
    obtain ⟨l, hl, rfl⟩ := List.mem_map.1 he
    obtain ⟨j, hj, rfl⟩ := List.getElem_of_mem hl
    exact ok_written s h j _ (List.getElem?_eq_getElem hj)
  · intro i e p he hp
    rw [List.getElem?_map] at he
    obtain ⟨l, hl, rfl⟩ := Option.map_eq_some_iff.1 he
    have := h.parents i l p hl hp
    simp only [List.length_nil]
    omega

theorem reopened_ups (s : OStage K) (h : WellKept s) :
    ∀ f i, ups (reopened s).layers f i = ups s.layers f i := by
  intro f
  induction f with
  | zero => intro i; rfl
  | succ f ih =>
    intro i
    unfold ups
    cases hl : s.layers[i]? with
    | none =>
      have : (reopened s).layers[i]? = none := by
        rw [List.getElem?_eq_none_iff] at hl ⊢
        rw [reopened_length]
        exact hl
      rw [this]
    | some l =>
      obtain ⟨l', hl', _, hp, _⟩ := reopened_layer s h i l hl
      rw [hl']
      simp only [hp]
      cases l.parent with
      | none => rfl
      | some p => simp only [ih]

theorem reopened_over (s : OStage K) (h : WellKept s) (j : Nat) (k : K) :
    overFor (reopened s) j k = overFor s j k := by
  rw [overFor_val h, overFor_val (reopened_kept s h), reopened_length, reopened_ups s h]
  congr 2
  funext i
  cases hl : s.layers[i]? with
  | none =>
    have : (reopened s).layers[i]? = none := by
      rw [List.getElem?_eq_none_iff] at hl ⊢
      rw [reopened_length]
      exact hl
    unfold valAt tableAt
    rw [hl, this]
    rfl
  | some l =>
    obtain ⟨l', _, _, _, _, _, hv⟩ := reopened_layer s h i l hl
    exact hv k

end OverCells

open OverCells
variable {K : Type} [DecidableEq K]

/-- C139: a stage loaded from files is well kept: parents come before their sub layers and the tables in the files
are dicts. -/
theorem C139_loaded (data : List (K × Option Nat × Dict K Over)) (hok : ∀ e ∈ data, Ok e.2.2)
    (hpar : ∀ (i : Nat) (e : K × Option Nat × Dict K Over) (p : Nat), data[i]? = some e → e.2.1 = some p → p < i) :
    WellKept (loaded data [] []) := by
  refine loaded_kept data [] [] ⟨?_, ?_, ?_, ?_⟩ hok ?_
  · intro i l p hl; simp at hl
  · intro i l hl; simp at hl
  · intro i l k c hl; simp at hl
  · intro i j l m k k' c hl; simp at hl
  · intro i e p he hp
    have := hpar i e p he hp
    simp only [List.length_nil]
    omega

/-- C139: and it stays so while overrides are set. -/
theorem C139_kept {s : OStage K} (h : WellKept s) (i : Nat) (fp : K) (st : Bool) :
    WellKept (muteOver s i fp st) ∧ WellKept (soloOver s i fp st) :=
  ⟨set_kept h i fp _, set_kept h i fp _⟩

/-- C139: an override set on a layer counts for every layer of that path at or below it. -/
theorem C139_below {s : OStage K} (h : WellKept s) (i : Nat) (fp : K) (st : Bool) (j : Nat) (l : ORec K)
    (hl : s.layers[j]? = some l) (hu : UpTo s.layers j i) (hp : l.path = fp) :
    isMuted (muteOver s i fp st) j = st ∧ isSoloed (soloOver s i fp st) j = st := by
  constructor
  · unfold muteOver
    rw [(muted_set h i fp _ j l hl).1, hp, overFor_set_below h i fp _ j hu]
    rfl
  · unfold soloOver
    rw [(muted_set h i fp _ j l hl).2, hp, overFor_set_below h i fp _ j hu]
    rfl

/-- C139: layers of other paths look as before, wherever they are. -/
theorem C139_other_paths {s : OStage K} (h : WellKept s) (i : Nat) (fp : K) (st : Bool) (j : Nat) (l : ORec K)
    (hl : s.layers[j]? = some l) (hp : l.path ≠ fp) :
    isMuted (muteOver s i fp st) j = isMuted s j ∧ isSoloed (muteOver s i fp st) j = isSoloed s j ∧
    isMuted (soloOver s i fp st) j = isMuted s j ∧ isSoloed (soloOver s i fp st) j = isSoloed s j := by
  unfold muteOver soloOver
  rw [(muted_set h i fp _ j l hl).1, (muted_set h i fp _ j l hl).2, (muted_set h i fp _ j l hl).1,
    (muted_set h i fp _ j l hl).2, overFor_set_other h i fp _ hp, overFor_set_other h i fp _ hp,
    (muted_eq j l hl).1, (muted_eq j l hl).2]
  exact ⟨rfl, rfl, rfl, rfl⟩

/-- C139 (partial: the path has an entry at the layer or above it, or nowhere): muting does not touch the solo states
of any layer, and soloing not the mute states.  Else the solo is lost, see `C139_solo_lost_violation`. -/
theorem C139_other_state_partial {s : OStage K} (h : WellKept s) (i : Nat) (fp : K) (st : Bool)
    (hs : SaidAbove s i fp ∨ ∀ j o, ¬ HoldsOver s j fp o) (j : Nat) (hj : j < s.layers.length) :
    isSoloed (muteOver s i fp st) j = isSoloed s j ∧ isMuted (soloOver s i fp st) j = isMuted s j := by
  classical
  have hl := List.getElem?_eq_getElem hj
  generalize s.layers[j] = l at hl
  by_cases hp : l.path = fp
  · have key : ∀ (f : Over → Over) {A : Type} (g : Over → A), (∀ o, g (f o) = g o) →
        g (overFor (setOver s i fp f) j fp) = g (overFor s j fp) := by
      intro f A g hg
      by_cases hu : UpTo s.layers j i
      · rw [overFor_set_below h i fp f j hu, hg]
        congr 1
        rcases hs with hs | hs
        · rw [said_iff h] at hs
          obtain ⟨pre, hpre⟩ := ups_split h.parents hu
          rw [overFor_eq h, overFor_eq h]
          have : cellOf s j fp = cellOf s i fp := by
            unfold cellOf at hs ⊢
            rw [hpre, List.reverse_append, List.findSome?_append]
            cases hc : (ups s.layers s.layers.length i).reverse.findSome?
                (fun j => get? fp (tableAt s.layers j)) with
            | none => exact absurd hc hs
            | some c => rfl
          rw [this]
        · have : ∀ a, cellOf s a fp = none := by
            intro a
            cases hc : cellOf s a fp with
            | none => rfl
            | some c =>
              obtain ⟨b, m, _, hm, hg'⟩ := cellOf_mem h fp c a hc
              have hlt := h.cells b m fp c hm hg'
              exact absurd ⟨m, c, hm, hg', List.getElem?_eq_getElem hlt⟩ (hs b s.heap[c])
          rw [overFor_eq h, overFor_eq h, this, this]
      · rw [overFor_set_beside h i fp f j hu]
        by_cases hc : (cellOf s j fp).isSome ∧ cellOf s j fp = cellOf s i fp
        · rw [if_pos hc, hg]
        · rw [if_neg hc]
    unfold muteOver soloOver
    rw [(muted_set h i fp _ j l hl).1, (muted_set h i fp _ j l hl).2, (muted_eq j l hl).1, (muted_eq j l hl).2, hp]
    constructor
    · exact congrArg (fun x => x.getD l.solo)
        (key (fun o => { o with mute := some st }) Over.solo (fun _ => rfl))
    · exact congrArg (fun x => x.getD l.mute)
        (key (fun o => { o with solo := some st }) Over.mute (fun _ => rfl))
  · have := C139_other_paths h i fp st j l hl hp
    exact ⟨this.2.1, this.2.2.1⟩

/-- C139 (partial: no layer at or above holds an entry for the path): layers beside the layer look as before.  Else
they may change with it, see `C139_beside_violation`. -/
theorem C139_beside_partial {s : OStage K} (h : WellKept s) (i : Nat) (fp : K) (st : Bool)
    (hs : ¬ SaidAbove s i fp) (j : Nat) (hj : j < s.layers.length) (hu : ¬ UpTo s.layers j i) :
    isMuted (muteOver s i fp st) j = isMuted s j ∧ isSoloed (muteOver s i fp st) j = isSoloed s j ∧
    isMuted (soloOver s i fp st) j = isMuted s j ∧ isSoloed (soloOver s i fp st) j = isSoloed s j := by
  have hl := List.getElem?_eq_getElem hj
  generalize s.layers[j] = l at hl
  by_cases hp : l.path = fp
  · have hn : cellOf s i fp = none := by
      cases hc : cellOf s i fp with
      | none => rfl
      | some c => exact absurd ((said_iff h fp i).2 (by rw [hc]; exact Option.some_ne_none c)) hs
    have hno : ¬ ((cellOf s j fp).isSome ∧ cellOf s j fp = cellOf s i fp) := by
      rintro ⟨h1, h2⟩
      rw [h2, hn] at h1
      cases h1
    unfold muteOver soloOver
    rw [(muted_set h i fp _ j l hl).1, (muted_set h i fp _ j l hl).2, (muted_set h i fp _ j l hl).1,
      (muted_set h i fp _ j l hl).2, (muted_eq j l hl).1, (muted_eq j l hl).2, hp,
      overFor_set_beside h i fp _ j hu, if_neg hno, overFor_set_beside h i fp _ j hu, if_neg hno]
    exact ⟨rfl, rfl, rfl, rfl⟩
  · exact C139_other_paths h i fp st j l hl hp

/-- C139 (partial: as `C139_other_state_partial`): muting a path through a layer with all the given layers below it,
for example the top layer, takes exactly the layers of that path out of the active ones. -/
theorem C139_mute_active_partial {s : OStage K} (h : WellKept s) (i : Nat) (fp : K)
    (hs : SaidAbove s i fp ∨ ∀ j o, ¬ HoldsOver s j fp o) (ls : List Nat) (hls : ∀ j ∈ ls, UpTo s.layers j i) :
    actives (muteOver s i fp true) ls
      = (actives s ls).filter (fun j => (s.layers[j]?).map ORec.path != some fp) := by
  have hlt : ∀ j ∈ ls, j < s.layers.length := by
    intro j hj
    cases hls j hj with
    | self _ l hl => exact (List.getElem?_eq_some_iff.1 hl).1
    | step _ p _ l hl _ _ => exact (List.getElem?_eq_some_iff.1 hl).1
  unfold actives
  rw [C22_active, C22_active, List.filter_filter]
  have hso : ∀ j ∈ ls, isSoloed (muteOver s i fp true) j = isSoloed s j := fun j hj =>
    (C139_other_state_partial h i fp true hs j (hlt j hj)).1
  have hany : ls.any (isSoloed (muteOver s i fp true)) = ls.any (isSoloed s) := by
    rw [Bool.eq_iff_iff, List.any_eq_true, List.any_eq_true]
    constructor
    · rintro ⟨x, hx, e⟩; exact ⟨x, hx, by rw [← hso x hx]; exact e⟩
    · rintro ⟨x, hx, e⟩; exact ⟨x, hx, by rw [hso x hx]; exact e⟩
  refine List.filter_congr ?_
  intro j hj
  rw [hso j hj, hany]
  have hl := List.getElem?_eq_getElem (hlt j hj)
  rw [hl]
  generalize s.layers[j]'(hlt j hj) = l at hl
  by_cases hp : l.path = fp
  · rw [(C139_below h i fp true j l hl (hls j hj) hp).1]
    simp [hp]
  · rw [(C139_other_paths h i fp true j l hl hp).1]
    simp [hp]

/-- C139 (partial: as `C139_other_state_partial`): soloing a path through such a layer leaves the layers which are not
muted and are of that path or were soloed before. -/
theorem C139_solo_active_partial {s : OStage K} (h : WellKept s) (i : Nat) (fp : K)
    (hs : SaidAbove s i fp ∨ ∀ j o, ¬ HoldsOver s j fp o) (ls : List Nat) (hls : ∀ j ∈ ls, UpTo s.layers j i)
    (hex : ∃ j ∈ ls, (s.layers[j]?).map ORec.path = some fp) (j : Nat) :
    j ∈ actives (soloOver s i fp true) ls ↔
      j ∈ ls ∧ isMuted s j = false ∧ ((s.layers[j]?).map ORec.path = some fp ∨ isSoloed s j = true) := by
  have hlt : ∀ j ∈ ls, j < s.layers.length := by
    intro j hj
    cases hls j hj with
    | self _ l hl => exact (List.getElem?_eq_some_iff.1 hl).1
    | step _ p _ l hl _ _ => exact (List.getElem?_eq_some_iff.1 hl).1
  have hmu : ∀ j ∈ ls, isMuted (soloOver s i fp true) j = isMuted s j := fun j hj =>
    (C139_other_state_partial h i fp true hs j (hlt j hj)).2
  have hso : ∀ j ∈ ls, (isSoloed (soloOver s i fp true) j = true ↔
      (s.layers[j]?).map ORec.path = some fp ∨ isSoloed s j = true) := by
    intro j hj
    have hl := List.getElem?_eq_getElem (hlt j hj)
    rw [hl]
    generalize s.layers[j]'(hlt j hj) = l at hl
    by_cases hp : l.path = fp
    · rw [(C139_below h i fp true j l hl (hls j hj) hp).2]
      simp [hp]
    · rw [(C139_other_paths h i fp true j l hl hp).2.2.2]
      simp [hp]
  unfold actives
  rw [(C22_members _ _ _ _).1]
  constructor
  · rintro ⟨hj, hm, hx⟩
    refine ⟨hj, (hmu j hj) ▸ hm, (hso j hj).1 (hx ?_)⟩
    obtain ⟨x, hx, e⟩ := hex
    exact ⟨x, hx, (hso x hx).2 (.inl e)⟩
  · rintro ⟨hj, hm, hx⟩
    exact ⟨hj, (hmu j hj).trans hm, fun _ => (hso j hj).2 hx⟩

/-- C139: the layer itself then holds every override which was seen from it, also those of the layers above: they are
written into its file. -/
theorem C139_baked {s : OStage K} (h : WellKept s) (i : Nat) (fp : K) (st : Bool) (hi : i < s.layers.length) (k : K)
    (hk : k ≠ fp) (o : Over) :
    HoldsOver (muteOver s i fp st) i k o ↔ SaidAbove s i k ∧ overFor s i k = o := by
  classical
  have hl := List.getElem?_eq_getElem hi
  generalize s.layers[i] = l at hl
  have hheap : (muteOver s i fp st).heap = newHeap s i fp (fun o => { o with mute := some st }) := by
    unfold muteOver; rw [setOver_eq h]; rfl
  have hlay : (muteOver s i fp st).layers[i]? = some { l with overs := Dict.set fp (newCell s i fp) (comped s i) } := by
    unfold muteOver
    rw [setOver_eq h, put_get, hl]
    simp
  constructor
  · rintro ⟨l', c, hl', hg, hh⟩
    rw [hlay] at hl'
    rw [← Option.some.inj hl'] at hg
    simp only [get?_set, if_neg hk, get?_comped h] at hg
    refine ⟨(said_iff h k i).2 (by rw [hg]; exact Option.some_ne_none c), ?_⟩
    rw [hheap, newHeap_old i fp _ (cell_lt h hg) (newCell_ne h hk hg)] at hh
    rw [overFor_eq h, hg]
    simp only [hh, Option.getD_some]
  · rintro ⟨hs, ho⟩
    rw [said_iff h] at hs
    cases hg : cellOf s i k with
    | none => exact absurd hg hs
    | some c =>
      refine ⟨_, c, hlay, ?_, ?_⟩
      · simp only [get?_set, if_neg hk, get?_comped h]
        exact hg
      · rw [hheap, newHeap_old i fp _ (cell_lt h hg) (newCell_ne h hk hg)]
        rw [overFor_eq h, hg] at ho
        simp only [] at ho
        rw [List.getElem?_eq_getElem (cell_lt h hg)] at ho ⊢
        exact congrArg some ho

/-- C139 (partial: the layers have no state of their own, which is not read from the file): when all layers are saved
and the stage is opened again, every layer is muted and soloed as before. -/
theorem C139_reopened_partial {s : OStage K} (h : WellKept s)
    (hown : ∀ (j : Nat) (l : ORec K), s.layers[j]? = some l → l.mute = false ∧ l.solo = false) :
    WellKept (reopened s) ∧
    ∀ j, isMuted (reopened s) j = isMuted s j ∧ isSoloed (reopened s) j = isSoloed s j := by
  refine ⟨reopened_kept s h, ?_⟩
  intro j
  cases hl : s.layers[j]? with
  | none =>
    have : (reopened s).layers[j]? = none := by
      rw [List.getElem?_eq_none_iff] at hl ⊢
      rw [reopened_length]
      exact hl
    unfold isMuted isSoloed
    rw [hl, this]
    exact ⟨rfl, rfl⟩
  | some l =>
    obtain ⟨l', hl', e1, _, e3, e4, _⟩ := reopened_layer s h j l hl
    obtain ⟨o1, o2⟩ := hown j l hl
    rw [(muted_eq j l hl).1, (muted_eq j l hl).2, (muted_eq j l' hl').1, (muted_eq j l' hl').2, e1, e3, e4, o1, o2,
      reopened_over s h]
    exact ⟨rfl, rfl⟩

/-- C139: a state of the layer itself, without an override, is lost by saving and opening. -/
theorem C139_own_state_lost_violation {s : OStage K} (h : WellKept s) (j : Nat) (l : ORec K)
    (hl : s.layers[j]? = some l) (hm : l.mute = true) (hn : ¬ SaidAbove s j l.path) :
    isMuted s j = true ∧ isMuted (reopened s) j = false := by
  have hover : overFor s j l.path = {} := by
    rw [overFor_eq h]
    cases hc : cellOf s j l.path with
    | none => rfl
    | some c => exact absurd ((said_iff h l.path j).2 (by rw [hc]; exact Option.some_ne_none c)) hn
  obtain ⟨l', hl', e1, _, e3, _⟩ := reopened_layer s h j l hl
  rw [(muted_eq j l hl).1, (muted_eq j l' hl').1, e1, e3, reopened_over s h, hover, hm]
  exact ⟨rfl, rfl⟩

/-! ### Cases -/

/-- A top layer 0 referring to 1 and 2, and 1 to 3; 3 and 2 are the same file (path 7), and the top layer mutes
nothing but says something about it and about path 9. -/
def exOvers : OStage Nat :=
  loaded [(0, none, [(7, { solo := some false }), (9, { mute := some true })]), (5, some 0, []), (7, some 0, []),
    (7, some 1, [])] [] []

theorem exOvers_kept : WellKept exOvers :=
  C139_loaded _ (by decide +kernel) (by
    intro i e p he hp
    match i, he with
    | 0, he => cases he; cases hp
    | 1, he => cases he; cases hp; omega
    | 2, he => cases he; cases hp; omega
    | 3, he => cases he; cases hp; omega)

/-- Muting through the top layer: both layers of that path, and no other. -/
theorem exOvers_muted :
    mutedOnes (muteOver exOvers 0 7 true) [0, 1, 2, 3] = [2, 3] ∧
    actives (muteOver exOvers 0 7 true) [0, 1, 2, 3] = [0, 1] ∧
    actives (soloOver exOvers 0 7 true) [0, 1, 2, 3] = [2, 3] := by decide +kernel

example : SaidAbove exOvers 0 7 ∧ ∀ j ∈ [0, 1, 2, 3], UpTo exOvers.layers j 0 := by
  have u0 : UpTo exOvers.layers 0 0 := .self 0 _ rfl
  have u1 : UpTo exOvers.layers 1 0 := .step 1 0 0 _ rfl rfl u0
  refine ⟨⟨0, { solo := some false }, u0, _, 0, rfl, rfl, rfl⟩, ?_⟩
  intro j hj
  simp only [List.mem_cons, List.not_mem_nil, or_false] at hj
  rcases hj with rfl | rfl | rfl | rfl
  · exact u0
  · exact u1
  · exact .step 2 0 0 _ rfl rfl u0
  · exact .step 3 1 0 _ rfl rfl u1

/-- C139: an override set on the layer 1 also mutes the layer 2 beside it, when a layer above has an entry for the
path: the small dict of the layer above is changed in place. -/
theorem C139_beside_violation :
    WellKept exOvers ∧ isMuted exOvers 2 = false ∧ isMuted (muteOver exOvers 1 7 true) 2 = true ∧
    written (muteOver exOvers 1 7 true) ((muteOver exOvers 1 7 true).layers[0]'(by decide +kernel))
      = [(7, { mute := some true, solo := some false }), (9, { mute := some true })] :=
  ⟨exOvers_kept, by decide +kernel, by decide +kernel, by decide +kernel⟩

/-- C139: the override of the top layer for path 9 goes into the file of layer 1, which had no override. -/
theorem C139_baked_violation :
    written exOvers (exOvers.layers[1]'(by decide +kernel)) = [] ∧
    written (muteOver exOvers 1 7 true) ((muteOver exOvers 1 7 true).layers[1]'(by decide +kernel))
      = [(7, { mute := some true, solo := some false }), (9, { mute := some true })] := by decide +kernel

/-- A top layer 0 referring to 1, which refers to 2 (path 7) and solos it; and 3 below the top layer. -/
def exSoloed : OStage Nat :=
  loaded [(0, none, []), (5, some 0, [(7, { solo := some true })]), (7, some 1, []), (8, some 0, [])] [] []

/-- C139: muting the soloed layer through the top layer drops its solo, and layers come back which were not active. -/
theorem C139_solo_lost_violation :
    actives exSoloed [0, 1, 2, 3] = [2] ∧ actives (muteOver exSoloed 0 7 true) [0, 1, 2, 3] = [0, 1, 3] := by
  decide +kernel

/-- A stage reopened: muted as before. -/
theorem exOvers_reopened :
    mutedOnes (reopened (muteOver exOvers 1 7 true)) [0, 1, 2, 3] = [2, 3] := by decide +kernel

end Nxt.Props
