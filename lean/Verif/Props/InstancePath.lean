import Verif.Model.InstancePath
import Verif.Spec.InstancePath
import Verif.Props.Comp
import Verif.Props.Path
/-!
# Property C115: setting instance paths
-/
namespace Nxt.Props
open NodeData InstancePath Spec

namespace InstPath

theorem findSome_append {L : Type} (a b : List (L × Option Str)) (h : ∀ s ∈ a, s.2 = none) :
    (a ++ b).findSome? Prod.snd = b.findSome? Prod.snd := by
  induction a with
  | nil => rfl
  | cons x a ih =>
    rw [List.cons_append, List.findSome?_cons, h x List.mem_cons_self]
    exact ih fun s hs => h s (List.mem_cons_of_mem _ hs)

theorem saying_other {L : Type} [DecidableEq L] (a : List (L × Option Str)) (target : L) (given : Option Str)
    (h : ∀ s ∈ a, s.1 ≠ target) : saying a target given = a := by
  unfold saying
  induction a with
  | nil => rfl
  | cons x a ih =>
    rw [List.map_cons, if_neg (h x List.mem_cons_self), ih fun s hs => h s (List.mem_cons_of_mem _ hs)]

theorem saying_split {L : Type} [DecidableEq L] (a b : List (L × Option Str)) (target : L) (old given : Option Str)
    (ha : ∀ s ∈ a, s.1 ≠ target) (hb : ∀ s ∈ b, s.1 ≠ target) :
    saying (a ++ (target, old) :: b) target given = a ++ (target, given) :: b := by
  have := saying_other a target given ha
  have := saying_other b target given hb
  unfold saying at *
  rw [List.map_append, List.map_cons, if_pos rfl]
  simp [*]

/-- Layers above which say nothing let the node change. -/
theorem not_unchanged {L : Type} [DecidableEq L] {c : Node L} {above below : List (L × Option Str)} {target : L} {old : Option Str}
    (hs : c.specs = above ++ (target, old) :: below) (hn : ∀ s ∈ above, s.2 = none) : unchanged c target = false := by
  unfold unchanged
  rw [hs, ← Bool.not_eq_true, C54_stronger]
  rintro ⟨b, hb, -⟩
  have h1 := List.find?_some hb
  have h2 := List.mem_of_find?_eq_some hb
  rw [List.map_append, List.map_cons] at h2
  have h3 : b ∈ above.map (fun s => (s.1, val s.2)) := by
    revert h2
    clear hb hs h1
    induction above with
    | nil => simp
    | cons x l ih =>
      intro h2
      rw [List.map_cons, List.cons_append, List.takeWhile_cons] at h2
      split at h2
      · rcases List.mem_cons.1 h2 with h2 | h2
        · rw [h2]; exact List.mem_cons_self
        · exact List.mem_cons_of_mem _ (ih (fun s hs => hn s (List.mem_cons_of_mem _ hs)) h2)
      · exact nomatch h2
  obtain ⟨s, hs', rfl⟩ := List.mem_map.1 h3
  rw [hn s hs'] at h1
  exact nomatch h1

theorem setInstance_specs {L : Type} [DecidableEq L] (c : Node L) (target : L) (given : Option Str) :
    (setInstance c target given).specs = saying c.specs target given ∧ (setInstance c target given).path = c.path ∧
      (setInstance c target given).others = c.others := by
  have : (c.specs.map fun s => if s.1 = target then (s.1, given) else s) = saying c.specs target given := by
    unfold saying
    refine List.map_congr_left fun s _ => ?_
    split
    · rename_i h; rw [h]
    · rfl
  unfold setInstance
  simp only [this]
  split <;> exact ⟨rfl, rfl, rfl⟩

end InstPath

/-! ## C115 -/

/-- C115: the layer asked says what was given, all others what they said before. -/
theorem C115_layers {L : Type} [DecidableEq L] (c : Node L) (target : L) (given : Option Str) :
    (setInstance c target given).specs = saying c.specs target given := (InstPath.setInstance_specs c target given).1

/-- C115, partial: when no stronger layer says anything, setting a path makes it the one of the composite node, read relative
to the node: what the layers say then.

Missing: stronger layers which say something, see `C115_stronger_partial` and `C115_overruled_violation`. -/
theorem C115_set_partial {L : Type} [DecidableEq L] (c : Node L) {above below : List (L × Option Str)} {target : L}
    {old : Option Str} (hs : c.specs = above ++ (target, old) :: below) (ha : ∀ s ∈ above, s.1 ≠ target)
    (hb : ∀ s ∈ below, s.1 ≠ target) (hn : ∀ s ∈ above, s.2 = none) (p : Str) :
    (setInstance c target (some p)).inst = effective (saying c.specs target (some p)) c.path ∧
      (setInstance c target (some p)).inst = Path.expandRelative (some p) c.path := by
  have h1 : (setInstance c target (some p)).inst = Path.expandRelative (some p) c.path := by
    unfold setInstance
    simp only [InstPath.not_unchanged hs hn]
    rfl
  refine ⟨?_, h1⟩
  rw [h1, hs, InstPath.saying_split _ _ _ _ _ ha hb]
  unfold effective
  rw [InstPath.findSome_append _ _ hn]
  rfl

/-- The first opinion before the target layer. -/
theorem InstPath.first_above {L : Type} [DecidableEq L] {c : Node L} {above below : List (L × Option Str)} {target : L}
    {old : Option Str} (hs : c.specs = above ++ (target, old) :: below) (ha : ∀ s ∈ above, s.1 ≠ target) {q : Str}
    (hq : above.findSome? Prod.snd = some q) : unchanged c target = !(same (val c.inst) (.str q)) := by
  have h1 : ∀ above : List (L × Option Str), (∀ s ∈ above, s.1 ≠ target) → above.findSome? Prod.snd = some q →
      ∃ l, (((above ++ (target, old) :: below).map (fun s => (s.1, val s.2))).takeWhile (fun b => b.1 ≠ target)).find?
        (fun b => b.2.hasOpinion) = some (l, .str q) := by
    intro above
    induction above with
    | nil => intro _ h; exact nomatch h
    | cons s l ih =>
      intro ha hq
      rw [List.cons_append, List.map_cons, List.takeWhile_cons_of_pos (by simpa using ha s List.mem_cons_self)]
      rw [List.findSome?_cons] at hq
      cases h2 : s.2 with
      | none =>
        rw [h2] at hq
        rw [List.find?_cons_of_neg (by simp [val, Val.hasOpinion])]
        exact ih (fun s hs => ha s (List.mem_cons_of_mem _ hs)) hq
      | some q' =>
        rw [h2] at hq
        cases hq
        rw [List.find?_cons_of_pos (by simp [val, Val.hasOpinion])]
        exact ⟨s.1, rfl⟩
  obtain ⟨l, hl⟩ := h1 above ha hq
  rw [Bool.eq_iff_iff]
  unfold unchanged
  rw [C54_stronger, hs, hl]
  simp

/-- C115, partial: when the strongest opinion is that of a stronger layer and is not written from the root on, setting or
clearing the path of the layer leaves the composite node as it is, which is what the layers say.

Missing: stronger layers with a path from the root on, see `C115_overruled_violation`. -/
theorem C115_stronger_partial {L : Type} [DecidableEq L] (c : Node L) {above below : List (L × Option Str)} {target : L}
    {old : Option Str} (hs : c.specs = above ++ (target, old) :: below) (ha : ∀ s ∈ above, s.1 ≠ target)
    (hb : ∀ s ∈ below, s.1 ≠ target) {q : Str} (hq : above.findSome? Prod.snd = some q) (hi : c.inst = effective c.specs c.path)
    (hrel : Path.expandRelative (some q) c.path ≠ some q) (given : Option Str) :
    (setInstance c target given).inst = c.inst ∧ (setInstance c target given).source = c.source ∧
      c.inst = effective (saying c.specs target given) c.path := by
  have hfirst : ∀ x, (above ++ (target, x) :: below).findSome? Prod.snd = some q := fun x => by
    rw [List.findSome?_append, hq]; rfl
  have hinst : c.inst = Path.expandRelative (some q) c.path := by
    rw [hi, hs]
    unfold effective
    rw [hfirst]
  have hu : unchanged c target = true := by
    rw [InstPath.first_above hs ha hq]
    have hne : c.inst ≠ some q := by rw [hinst]; exact hrel
    cases hc : c.inst with
    | none => rfl
    | some x =>
      rw [hc] at hne
      simp only [val, same, Bool.not_eq_true']
      exact beq_false_of_ne fun e => hne (by rw [e])
  unfold setInstance
  simp only [hu, if_true]
  refine ⟨trivial, trivial, ?_⟩
  rw [hinst, hs, InstPath.saying_split _ _ _ _ _ ha hb]
  unfold effective
  rw [hfirst]

/-- C115, violation: when the strongest opinion is that of a stronger layer and is written from the root on, setting the path of
the layer makes it the one of the composite node, and the layer its source, although the stronger layer still says otherwise. -/
theorem C115_overruled_violation {L : Type} [DecidableEq L] (c : Node L) {above below : List (L × Option Str)} {target : L}
    {old : Option Str} (hs : c.specs = above ++ (target, old) :: below) (ha : ∀ s ∈ above, s.1 ≠ target)
    (hb : ∀ s ∈ below, s.1 ≠ target) {q : Str} (hq : above.findSome? Prod.snd = some q) (hi : c.inst = effective c.specs c.path)
    (hroot : q.head? = some '/') (p : Str) :
    (setInstance c target (some p)).inst = Path.expandRelative (some p) c.path ∧
      (setInstance c target (some p)).source = (target, c.path) ∧
      effective (saying c.specs target (some p)) c.path = some q := by
  have hfirst : ∀ x, (above ++ (target, x) :: below).findSome? Prod.snd = some q := fun x => by
    rw [List.findSome?_append, hq]; rfl
  have hinst : c.inst = some q := by
    rw [hi, hs]
    unfold effective
    rw [hfirst]
    exact C13_absolute_unchanged q c.path hroot
  have hu : unchanged c target = false := by
    rw [InstPath.first_above hs ha hq, hinst]
    simp [val, same]
  unfold setInstance
  simp only [hu]
  refine ⟨rfl, rfl, ?_⟩
  rw [hs, InstPath.saying_split _ _ _ _ _ ha hb]
  unfold effective
  rw [hfirst]
  exact C13_absolute_unchanged q c.path hroot

/-- C115, partial: when no stronger layer says anything, the layer itself gives a path from the root on, which the composite
node has from there, and no class behind the specs counts, clearing the path leaves what the weaker layers say.

Missing: paths which are not from the root on, layers which say nothing, and composite nodes whose source is another layer;
see `C115_relative_violation`, `C115_silent_violation`, `C115_twice_violation`. -/
theorem C115_clear_partial {L : Type} [DecidableEq L] (c : Node L) {above below : List (L × Option Str)} {target : L} {p : Str}
    (hs : c.specs = above ++ (target, some p) :: below) (ha : ∀ s ∈ above, s.1 ≠ target) (hb : ∀ s ∈ below, s.1 ≠ target)
    (hn : ∀ s ∈ above, s.2 = none) (hp : p.head? = some '/') (hi : c.inst = effective c.specs c.path)
    (hsrc : c.source = (target, c.path)) (ho : c.others = []) :
    (setInstance c target none).inst = effective (saying c.specs target none) c.path := by
  have hinst : c.inst = some p := by
    rw [hi, hs]
    unfold effective
    rw [InstPath.findSome_append _ _ hn]
    exact C13_absolute_unchanged p c.path hp
  have habove : above.filterMap (fun s => s.2.map (fun p => ((s.1, c.path), p))) = [] := by
    rw [List.filterMap_eq_nil_iff]
    intro s hs'
    rw [hn s hs']; rfl
  -- the history
  have hskip : ∀ (l : List ((L × Str) × Str)) (h : List ((L × Str) × Str)),
      ∃ t, l.foldl (fun h e => if e ∈ h then h else h ++ [e]) h = h ++ t ∧ (l.find? (fun e => decide (e ∉ h))) = t.head? := by
    intro l
    induction l with
    | nil => intro h; exact ⟨[], by simp, rfl⟩
    | cons e l ih =>
      intro h
      rw [List.foldl_cons]
      by_cases he : e ∈ h
      · rw [if_pos he]
        obtain ⟨t, h1, h2⟩ := ih h
        exact ⟨t, h1, by rw [List.find?_cons_of_neg (by simpa using he)]; exact h2⟩
      · rw [if_neg he]
        obtain ⟨t, h1, -⟩ := ih (h ++ [e])
        exact ⟨e :: t, by rw [h1]; simp, by rw [List.find?_cons_of_pos (by simpa using he)]; rfl⟩
  have hhist : ∃ t, history c = ((target, c.path), p) :: t ∧
      (below.filterMap (fun s => s.2.map (fun p => ((s.1, c.path), p)))).head? = t.head? := by
    unfold history
    rw [hinst, hsrc, ho, hs, List.filterMap_append, habove, List.filterMap_cons]
    simp only [Option.map_some, List.nil_append, List.append_nil, List.singleton_append, List.foldl_cons, List.not_mem_nil,
      if_false, List.mem_singleton, if_true]
    obtain ⟨t, h1, h2⟩ := hskip (below.filterMap (fun s => s.2.map (fun p => ((s.1, c.path), p)))) [((target, c.path), p)]
    refine ⟨t, h1, ?_⟩
    rw [← h2]
    cases hf : below.filterMap (fun s => s.2.map (fun p => ((s.1, c.path), p))) with
    | nil => rfl
    | cons e l =>
      rw [List.find?_cons_of_pos]
      · rfl
      · have : e ∈ below.filterMap (fun s => s.2.map (fun p => ((s.1, c.path), p))) := by rw [hf]; exact List.mem_cons_self
        obtain ⟨s, hs1, hs2⟩ := List.mem_filterMap.1 this
        rw [Option.map_eq_some_iff] at hs2
        obtain ⟨q, -, rfl⟩ := hs2
        simp only [List.mem_singleton, Prod.mk.injEq, decide_eq_true_eq]
        rintro ⟨⟨h1, -⟩, -⟩
        exact hb s hs1 h1
  obtain ⟨t, h1, h2⟩ := hhist
  have hh : (historical c).head? = t.head? := by
    unfold historical
    rw [h1]
    cases t with
    | nil => rfl
    | cons e t => rw [if_neg (by simp)]; rfl
  have h3 : (setInstance c target none).inst = newInst c none := by
    unfold setInstance
    simp only [InstPath.not_unchanged hs hn]
    rfl
  have h4 : below.findSome? Prod.snd = ((below.filterMap (fun s => s.2.map (fun p => ((s.1, c.path), p)))).head?).map Prod.snd := by
    clear hs hb h2
    induction below with
    | nil => rfl
    | cons s l ih =>
      rw [List.findSome?_cons, List.filterMap_cons]
      cases hs2 : s.2 with
      | none => simp only [Option.map_none]; exact ih
      | some q => rfl
  rw [h3, hs, InstPath.saying_split _ _ _ _ _ ha hb]
  unfold newInst effective
  simp only [hh, ← h2]
  rw [InstPath.findSome_append _ _ hn, List.findSome?_cons]
  simp only [h4]
  cases (below.filterMap (fun s => s.2.map (fun p => ((s.1, c.path), p)))).head? <;> rfl

/-- A node with two layers. -/
def exInstNode (strong weak inst : Option String) (source : Nat) : Node Nat :=
  ⟨"/a/n".toList, [(0, strong.map String.toList), (1, weak.map String.toList)], inst.map String.toList, (source, "/a/n".toList), []⟩

/-- C115, violation: setting a path on a weaker layer makes it the one of the composite node, although the stronger layer
says otherwise. -/
theorem C115_weaker_violation :
    (setInstance (exInstNode (some "/x") none (some "/x") 0) 1 (some "/y".toList)).inst = some "/y".toList ∧
    effective (saying (exInstNode (some "/x") none (some "/x") 0).specs 1 (some "/y".toList)) "/a/n".toList = some "/x".toList := by
  decide +kernel

/-- C115, violation: clearing a relative path has no effect on the composite node. -/
theorem C115_relative_violation :
    (setInstance (exInstNode (some "../x") none (some "/a/x") 0) 0 none).inst = some "/a/x".toList ∧
    effective (saying (exInstNode (some "../x") none (some "/a/x") 0).specs 0 none) "/a/n".toList = none := by
  decide +kernel

/-- C115, violation: clearing the path on a layer which has none takes away the path of the weaker layer. -/
theorem C115_silent_violation :
    (setInstance (exInstNode none (some "/x") (some "/x") 1) 0 none).inst = none ∧
    effective (saying (exInstNode none (some "/x") (some "/x") 1).specs 0 none) "/a/n".toList = some "/x".toList := by
  decide +kernel

/-- C115, violation: after clearing the path of the stronger layer, the path of the weaker one can not be cleared any more. -/
theorem C115_twice_violation :
    let c := setInstance (exInstNode (some "/x") (some "/y") (some "/x") 0) 0 none
    c.inst = some "/y".toList ∧ (setInstance c 1 none).inst = some "/y".toList ∧
    effective (saying c.specs 1 none) "/a/n".toList = none := by
  decide +kernel

/-- The hypotheses are met. -/
example : (setInstance (exInstNode (some "/x") (some "../y") (some "/x") 0) 0 none).inst = some "/a/y".toList := by
  rw [C115_clear_partial (exInstNode (some "/x") (some "../y") (some "/x") 0) (above := []) (below := [(1, some "../y".toList)])
    (target := 0) (p := "/x".toList) rfl (by simp) (by simp) (by simp) rfl (by decide +kernel) rfl rfl]
  decide +kernel

example : (setInstance (exInstNode none (some "../y") (some "/a/y") 1) 0 (some "../../b/z".toList)).inst = some "/b/z".toList := by
  rw [(C115_set_partial (exInstNode none (some "../y") (some "/a/y") 1) (above := []) (below := [(1, some "../y".toList)])
    (target := 0) (old := none) rfl (by simp) (by simp) (by simp) _).2]
  decide +kernel

example : (setInstance (exInstNode (some "../x") none (some "/a/x") 0) 1 (some "/y".toList)).inst = some "/a/x".toList := by
  rw [(C115_stronger_partial (exInstNode (some "../x") none (some "/a/x") 0) (above := [(0, some "../x".toList)]) (below := [])
    (target := 1) (old := none) rfl (by simp) (by simp) (q := "../x".toList) rfl (by decide +kernel) (by decide +kernel) _).1]
  rfl

end Nxt.Props
