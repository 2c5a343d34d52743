import Verif.Model.Targets
import Verif.Spec.Targets
import Verif.Props.Arcs
import Verif.Props.Dirty
/-!
# Property C153: the instances of a node
-/
namespace Nxt.Props
open Dict Spec Targets

namespace Targeting
variable {nodes : List Str} {inst : Str → Option Str} {src : Str}

/-- The nodes from `q` up to the one which names `src`. -/
inductive Way (nodes : List Str) (inst : Str → Option Str) (src : Str) : Str → List Str → Prop
  | here : Way nodes inst src src []
  | step {q p : Str} {st : List Str} : Way nodes inst src q st → p ∈ nodes → inst p = some q → Way nodes inst src p (p :: st)

theorem Way.stands {q : Str} {st : List Str} (h : Way nodes inst src q st) : st = [] ∧ q = src ∨ StandsFor nodes inst src q := by
  induction h with
  | here => exact .inl ⟨rfl, rfl⟩
  | step _ hp hi ih =>
    rcases ih with ⟨-, rfl⟩ | ih
    · exact .inr (.one hp hi)
    · exact .inr (.more ih hp hi)

theorem Way.unique (hl : ¬ StandsFor nodes inst src src) {q : Str} {s t : List Str} (h : Way nodes inst src q s) :
    Way nodes inst src q t → s = t := by
  induction h generalizing t with
  | here =>
    intro h'
    rcases h' with _ | ⟨h', hp, hi⟩
    · rfl
    · exact absurd ((Way.step h' hp hi).stands) (by simp [hl])
  | step h hp hi ih =>
    intro h'
    rcases h' with _ | ⟨h', hp', hi'⟩
    · exact absurd ((Way.step h hp hi).stands) (by simp [hl])
    · rw [hi] at hi'
      cases hi'
      rw [ih h']

theorem Way.tail {q x : Str} {st : List Str} (h : Way nodes inst src q st) (hx : x ∈ st) :
    ∃ st', Way nodes inst src x st' ∧ st'.length ≤ st.length := by
  induction h with
  | here => cases hx
  | step h hp hi ih =>
    rcases List.mem_cons.1 hx with rfl | hx
    · exact ⟨_, .step h hp hi, Nat.le_refl _⟩
    · obtain ⟨st', h1, h2⟩ := ih hx
      exact ⟨st', h1, Nat.le_succ_of_le h2⟩

theorem Way.new (hl : ¬ StandsFor nodes inst src src) {q p : Str} {st : List Str} (h : Way nodes inst src q st)
    (hp : p ∈ nodes) (hi : inst p = some q) : p ∉ st := by
  intro hx
  obtain ⟨st', h1, h2⟩ := h.tail hx
  have := h1.unique hl (.step h hp hi)
  rw [this] at h2
  exact absurd h2 (by simp)

theorem Way.nodup (hl : ¬ StandsFor nodes inst src src) {q : Str} {st : List Str} (h : Way nodes inst src q st) : st.Nodup := by
  induction h with
  | here => exact List.nodup_nil
  | step h hp hi ih => exact List.nodup_cons.2 ⟨h.new hl hp hi, ih⟩

theorem Way.mem {q : Str} {st : List Str} (h : Way nodes inst src q st) : ∀ x ∈ st, x ∈ nodes := by
  induction h with
  | here => intro x hx; cases hx
  | step _ hp _ ih =>
    intro x hx
    rcases List.mem_cons.1 hx with rfl | hx
    · exact hp
    · exact ih x hx

theorem Way.append {q x : Str} {st : List Str} (h : Way nodes inst src q st) (hx : StandsFor nodes inst q x) :
    ∃ s, s ≠ [] ∧ Way nodes inst src x (s ++ st) := by
  induction hx with
  | one hp hi => exact ⟨[_], by simp, .step h hp hi⟩
  | more _ hp hi ih =>
    obtain ⟨s, -, h'⟩ := ih
    exact ⟨_ :: s, by simp, .step h' hp hi⟩

/-- What one call adds. -/
structure Found (nodes : List Str) (inst : Str → Option Str) (q : Str) (r : List Str) : Prop where
  mem : ∀ p, p ∈ r ↔ StandsFor nodes inst q p
  nodup : nodes.Nodup → r.Nodup
  after : ∀ p ∈ r, inst p = some q ∨ ∃ p', inst p = some p' ∧ [p', p].Sublist r

theorem stands_cases {q p : Str} (h : StandsFor nodes inst q p) :
    ∃ c ∈ nodes, inst c = some q ∧ (p = c ∨ StandsFor nodes inst c p) := by
  induction h with
  | one hp hi => exact ⟨_, hp, hi, .inl rfl⟩
  | more _ hp hi ih =>
    obtain ⟨c, h1, h2, h3⟩ := ih
    refine ⟨c, h1, h2, .inr ?_⟩
    rcases h3 with rfl | h3
    · exact .one hp hi
    · exact .more h3 hp hi

theorem stands_from {q c p : Str} (hc : c ∈ nodes) (hi : inst c = some q) (h : StandsFor nodes inst c p) :
    StandsFor nodes inst q p := by
  induction h with
  | one hp hi' => exact .more (.one hc hi) hp hi'
  | more _ hp hi' ih => exact .more ih hp hi'

theorem stands_mem {q p : Str} (h : StandsFor nodes inst q p) : p ∈ nodes := by
  cases h <;> assumption

variable {β : Type} {spec : Str → β}

/-- The loop over the rest `ps` of the nodes. -/
theorem loop_spec (hl : ¬ StandsFor nodes inst src src) {q : Str} {st : List Str} (hw : Way nodes inst src q st)
    {call : Str → List β → Option (List β)}
    (hcall : ∀ p ∈ nodes, inst p = some q → ∃ r, Found nodes inst p r ∧ ∀ acc, call p acc = some (acc ++ r.map spec)) :
    ∀ ps, (∀ p ∈ ps, p ∈ nodes) → ∃ r, (∀ acc, loop inst spec call q ps acc = some (acc ++ r.map spec)) ∧
      (∀ x, x ∈ r ↔ ∃ c ∈ ps, inst c = some q ∧ (x = c ∨ StandsFor nodes inst c x)) ∧
      (nodes.Nodup → ps.Nodup → r.Nodup) ∧
      (∀ p ∈ r, inst p = some q ∨ ∃ p', inst p = some p' ∧ [p', p].Sublist r) := by
  intro ps
  induction ps with
  | nil => exact fun _ => ⟨[], fun acc => by simp [loop], by simp, fun _ _ => List.nodup_nil, by simp⟩
  | cons p ps ih =>
    intro hps
    obtain ⟨r, h1, h2, h3, h4⟩ := ih fun x hx => hps x (by simp [hx])
    have hp := hps p (by simp)
    by_cases hi : inst p = some q
    · obtain ⟨rp, hF, hc⟩ := hcall p hp hi
      refine ⟨p :: rp ++ r, fun acc => ?_, fun x => ?_, fun hn hpn => ?_, fun x hx => ?_⟩
      · unfold loop
        rw [if_pos hi, hc, Option.bind_some, h1]
        simp
      · simp only [List.cons_append, List.mem_cons, List.mem_append, h2, hF.mem, exists_eq_or_imp, hi, true_and]
        rw [or_assoc]
      · have hwp : Way nodes inst src p (p :: st) := .step hw hp hi
        have key : ∀ c, c ∈ nodes → inst c = some q → ∀ x, (x = c ∨ StandsFor nodes inst c x) →
            ∃ s, Way nodes inst src x (s ++ c :: st) := by
          intro c hc hi x hx
          rcases hx with rfl | hx
          · exact ⟨[], .step hw hc hi⟩
          · obtain ⟨s, -, h⟩ := (Way.step hw hc hi).append hx
            exact ⟨s, h⟩
        rw [List.nodup_append]
        refine ⟨List.nodup_cons.2 ⟨fun h => ?_, hF.nodup hn⟩, h3 hn (List.nodup_cons.1 hpn).2, ?_⟩
        · obtain ⟨s, hs, h⟩ := hwp.append ((hF.mem p).1 h)
          exact hs (by simpa using (h.unique hl hwp))
        · intro x hx y hy e
          subst e
          obtain ⟨c, hc, hci, hcx⟩ := (h2 x).1 hy
          obtain ⟨s, hs⟩ := key c (hps c (by simp [hc])) hci x hcx
          obtain ⟨s', hs'⟩ := key p hp hi x (by simpa [hF.mem] using hx)
          have e := hs.unique hl hs'
          have := (List.append_inj' e (by simp)).2
          rw [List.cons.injEq] at this
          exact (List.nodup_cons.1 hpn).1 (this.1 ▸ hc)
      · simp only [List.cons_append, List.mem_cons, List.mem_append] at hx
        rcases hx with rfl | hx | hx
        · exact .inl hi
        · rcases hF.after x hx with h | ⟨p', h, hs⟩
          · exact .inr ⟨p, h, List.Sublist.cons_cons _ ((List.singleton_sublist.2 hx).trans (List.sublist_append_left _ _))⟩
          · exact .inr ⟨p', h, (hs.trans (List.sublist_append_left _ _)).cons _⟩
        · rcases h4 x hx with h | ⟨p', h, hs⟩
          · exact .inl h
          · exact .inr ⟨p', h, hs.trans (List.sublist_append_right _ _)⟩
    · refine ⟨r, fun acc => ?_, fun x => ?_, fun hn hpn => h3 hn (List.nodup_cons.1 hpn).2, h4⟩
      · unfold loop
        rw [if_neg hi, h1]
      · rw [h2]
        simp [hi]

theorem targets_found (hl : ¬ StandsFor nodes inst src src) : ∀ fuel q st, Way nodes inst src q st →
    nodes.length + 1 ≤ fuel + st.length →
    ∃ r, Found nodes inst q r ∧ ∀ acc, instanceTargets nodes inst spec fuel q acc = some (acc ++ r.map spec) := by
  intro fuel
  induction fuel with
  | zero =>
    intro q st hw hf
    have := Dirty.length_le_of_nodup (hw.nodup hl) hw.mem
    omega
  | succ fuel ih =>
    intro q st hw hf
    obtain ⟨r, h1, h2, h3, h4⟩ := loop_spec (spec := spec) hl hw (call := instanceTargets nodes inst spec fuel)
      (fun p hp hi => ih p (p :: st) (.step hw hp hi) (by simp only [List.length_cons]; omega)) nodes (fun _ h => h)
    refine ⟨r, ⟨fun p => ?_, fun hn => h3 hn hn, h4⟩, fun acc => h1 acc⟩
    rw [h2]
    exact ⟨fun ⟨c, hc, hi, h⟩ => h.elim (fun e => e ▸ .one hc hi) (stands_from hc hi), stands_cases⟩

theorem loop_none {call : Str → List β → Option (List β)} {q c : Str} (hi : inst c = some q) (hc : ∀ acc, call c acc = none) :
    ∀ ps, c ∈ ps → ∀ acc, loop inst spec call q ps acc = none := by
  intro ps
  induction ps with
  | nil => intro h; cases h
  | cons p ps ih =>
    intro h acc
    unfold loop
    rcases List.mem_cons.1 h with rfl | h
    · rw [if_pos hi, hc, Option.bind_none]
    · split
      · cases call p (acc ++ [spec p]) with
        | none => rfl
        | some a => exact ih h a
      · exact ih h acc

end Targeting
open Targeting

/-- C153: the instances found for a node are the nodes which stand for it, directly or through others, each once and each
after the node it names; at most as many calls are nested as there are nodes and one more.  This needs that the node does
not stand for itself. -/
theorem C153_targets_partial {β : Type} (nodes : List Str) (inst : Str → Option Str) (spec : Str → β) (src : Str)
    (hl : ¬ StandsFor nodes inst src src) :
    ∀ fuel ≥ nodes.length + 1, ∃ r, (∀ acc, instanceTargets nodes inst spec fuel src acc = some (acc ++ r.map spec)) ∧
      (∀ p, p ∈ r ↔ StandsFor nodes inst src p) ∧ (nodes.Nodup → r.Nodup) ∧
      (∀ p ∈ r, inst p = some src ∨ ∃ p', inst p = some p' ∧ [p', p].Sublist r) := by
  intro fuel hf
  obtain ⟨r, F, h⟩ := targets_found (spec := spec) hl fuel src [] .here (by simpa using hf)
  exact ⟨r, h, F.mem, F.nodup, F.after⟩

/-- C153, where it fails: for a node which stands for itself, directly or through others, no depth of calls is enough. -/
theorem C153_loop_violation {β : Type} (nodes : List Str) (inst : Str → Option Str) (spec : Str → β) (src : Str)
    (hl : StandsFor nodes inst src src) (fuel : Nat) (acc : List β) : instanceTargets nodes inst spec fuel src acc = none := by
  induction fuel generalizing src acc with
  | zero => rfl
  | succ fuel ih =>
    obtain ⟨c, hc, hi, h⟩ := stands_cases hl
    refine loop_none hi (fun acc => ih c ?_ acc) nodes hc acc
    rcases h with rfl | h
    · exact hl
    · exact .more h hc hi

namespace Targeting
open Build Building Executing Behind Inherit Path NodeData
variable {layers : List Comp.LayerNodes} {B : BSt} {g : Mro.Classes}

theorem drawn_names {ns s : List Str} (h : Drawn layers ns s) : Names ns ∧ Names s := by
  obtain ⟨q, r, t, rfl, rfl, ⟨hq, i, -, -, hr, -⟩, ht, -⟩ := h
  exact ⟨names_append.2 ⟨hq, ht⟩, names_append.2 ⟨hr, ht⟩⟩

theorem drawn_once (C : Separate (instPathOf layers)) {p q s : List Str} (h : Drawn layers p q) : ¬ Drawn layers q s := by
  obtain ⟨q1, r1, t1, -, e1, h1, -, -⟩ := h
  rintro ⟨q2, r2, t2, e2, -, h2, -, -⟩
  rcases List.prefix_or_prefix_of_prefix (l₁ := q2) (l₂ := r1) (l₃ := q) ⟨t2, e2.symm⟩ ⟨t1, e1.symm⟩ with h | h
  · exact (C.apart q1 r1 q2 r2 h1 h2).1 h
  · exact (C.apart q1 r1 q2 r2 h1 h2).2 h

/-- A node names a node as its instance path exactly when it stands for it. -/
theorem names_source (t : Tidy layers) (R : Ran layers B g) {ns s : List Str} (hN : Names ns) (hs : Names s)
    (hn : render ns ∈ keys (classes B).2) (hk : render s ∈ keys (classes B).2) :
    instPath (classes B).2 g (render ns) = some (render s) ↔ Drawn layers ns s := by
  obtain ⟨c, hc⟩ := Option.isSome_iff_exists.1 (get?_isSome.2 hn)
  have e0 : instPath (classes B).2 g (render ns) = Build.textOf (g.attr c A_INSTANCE) := by
    unfold instPath
    rw [hc]
    rfl
  rw [e0]
  constructor
  · intro h
    have hr := read_inst t R hc
    by_cases hd : ∃ s', Drawn layers ns s'
    · obtain ⟨s', hd⟩ := hd
      rw [drawn_inst R t hc hd] at h
      rw [← render_inj (drawn_names hd).2 hs (Option.some.inj h)]
      exact hd
    · exfalso
      refine R.whole.done.other ns hN (by simpa only [← drawn_iff] using hd) (render s) ?_ (R.whole.classed.keys ▸ hk)
      rw [← hr]
      exact h
  · intro h
    rw [drawn_inst R t hc h]
    rfl

end Targeting

open Build Building Executing Behind Inherit Path Arcs in
/-- C153: in a composed stage with instances, the instances found for a node are the specs of exactly the nodes which stand
for it: those which name it, and the copies of it below an instance. -/
theorem C153_composed_partial {layers : List Comp.LayerNodes} (t : Tidy layers) (hs : NoStale layers) (hn : Named layers)
    (C : Separate (instPathOf layers)) (same : Str → Str → Bool) {kids : List Str → Str → List Str} (hk : GivesKids kids)
    (real : Option Str) :
    ∃ n, ∀ fuel ≥ n, ∃ g nodes, Build.compose same kids real fuel layers = some (g, nodes) ∧
      ∀ paths src depth, paths.Nodup → (∀ p ∈ paths, p ∈ keys nodes) → (∀ p ∈ keys nodes, p ≠ "/".toList → p ∈ paths) →
        Names src → render src ∈ keys nodes → paths.length < depth →
        ∃ (r : List (List Str)) (spec : List Str → Nat),
          targetsOf nodes g paths depth (render src) = some (r.map fun ns => some (spec ns)) ∧ r.Nodup ∧
          (∀ ns, ns ∈ r ↔ Drawn layers ns src) ∧
          ∀ ns ∈ r, (stack layers (render ns) ≠ [] → (stack layers (render ns)).head? = some (g.own (spec ns))) ∧
            get? "_parent_path".toList (g.own (spec ns)) = some (.str (parentText ns)) ∧
            get? "_name".toList (g.own (spec ns)) = some (.str (nameText ns)) := by
  obtain ⟨n, h⟩ := Executing.ran t hs hn C same hk real
  obtain ⟨n', h'⟩ := C152_spec t hs hn C same hk real
  refine ⟨max n n', fun fuel hf => ?_⟩
  obtain ⟨B, g, h1, R⟩ := h fuel (by omega)
  obtain ⟨g', nodes', h1', hspec⟩ := h' fuel (by omega)
  rw [h1] at h1'
  obtain ⟨rfl, rfl⟩ := Prod.mk.inj (Option.some.inj h1')
  refine ⟨g, _, h1, fun paths src depth hnd hp hp' hN hsrc hd => ?_⟩
  have hname : ∀ p ∈ paths, ∃ ns, Names ns ∧ p = render ns := fun p h =>
    R.whole.done.path p (R.whole.classed.keys ▸ hp p h)
  have hst : ∀ p, StandsFor paths (instPath (classes B).2 g) (render src) p ↔ ∃ ns, p = render ns ∧ Drawn layers ns src := by
    intro p
    constructor
    · intro h
      induction h with
      | one hm hi =>
        obtain ⟨ns, hns, rfl⟩ := hname _ hm
        exact ⟨ns, rfl, (names_source t R hns hN (hp _ hm) hsrc).1 hi⟩
      | more h hm hi ih =>
        obtain ⟨ns, rfl, hd⟩ := ih
        obtain ⟨ms, hms, rfl⟩ := hname _ hm
        have hq := stands_mem h
        exact absurd hd (drawn_once C ((names_source t R hms (drawn_names hd).1 (hp _ hm) (hp _ hq)).1 hi))
    · rintro ⟨ns, rfl, hd⟩
      have hk' : render ns ∈ keys (classes B).2 := by
        rw [R.whole.classed.keys, R.whole.done.nodes ns (drawn_names hd).1]
        exact .inr ⟨src, drawn_iff.1 hd⟩
      refine .one (hp' _ hk' fun e => ?_) ((names_source t R (drawn_names hd).1 hN hk' hsrc).2 hd)
      exact drawn_ne C hd (render_inj (drawn_names hd).1 (by simp [Names]) (e.trans render_nil.symm))
  have hl : ¬ StandsFor paths (instPath (classes B).2 g) (render src) (render src) := by
    rw [hst]
    rintro ⟨ns, e, hd⟩
    have := render_inj hN (drawn_names hd).1 e
    subst this
    exact drawn_once C hd hd
  obtain ⟨r, h2, h3, h4, -⟩ := C153_targets_partial paths (instPath (classes B).2 g)
    (fun p => (get? p (classes B).2).bind (nodeSpec (isSpec (classes B).2) g.bases 2)) (render src) hl depth hd
  obtain ⟨r', rfl, hr'⟩ : ∃ r' : List (List Str), r = r'.map render ∧ ∀ ns ∈ r', Names ns := by
    clear h2 h4
    have : ∀ p ∈ r, ∃ ns, Names ns ∧ p = render ns := fun p h => by
      obtain ⟨ns, e, hd⟩ := (hst p).1 ((h3 p).1 h)
      exact ⟨ns, (drawn_names hd).1, e⟩
    clear h3
    induction r with
    | nil => exact ⟨[], rfl, by simp⟩
    | cons p r ih =>
      obtain ⟨r', e, h⟩ := ih fun q hq => this q (by simp [hq])
      obtain ⟨ns, h1, h2⟩ := this p (by simp)
      exact ⟨ns :: r', by simp [e, h2], by simpa using ⟨h1, h⟩⟩
  have hmem : ∀ ns, ns ∈ r' ↔ Drawn layers ns src := by
    intro ns
    constructor
    · intro h
      obtain ⟨ms, e, hd⟩ := (hst _).1 ((h3 _).1 (List.mem_map_of_mem h))
      rw [render_inj (hr' ns h) (drawn_names hd).1 e]
      exact hd
    · intro h
      obtain ⟨ms, hm, e⟩ := List.mem_map.1 ((h3 _).2 ((hst _).2 ⟨ns, rfl, h⟩))
      rw [← render_inj (hr' ms hm) (drawn_names h).1 e]
      exact hm
  have hsp : ∀ ns ∈ r', ∃ s, (get? (render ns) (classes B).2).bind (nodeSpec (isSpec (classes B).2) g.bases 2) = some s ∧
      (stack layers (render ns) ≠ [] → (stack layers (render ns)).head? = some (g.own s)) ∧
      get? "_parent_path".toList (g.own s) = some (.str (parentText ns)) ∧
      get? "_name".toList (g.own s) = some (.str (nameText ns)) := by
    intro ns hm
    have hd := (hmem ns).1 hm
    have hk' : render ns ∈ keys (classes B).2 := by
      rw [R.whole.classed.keys, R.whole.done.nodes ns (drawn_names hd).1]
      exact .inr ⟨src, drawn_iff.1 hd⟩
    obtain ⟨c, hc⟩ := Option.isSome_iff_exists.1 (get?_isSome.2 hk')
    obtain ⟨s, e1, -, -, e2, e3, e4⟩ := hspec ns c 0 (drawn_names hd).1 hc
    exact ⟨s, by rw [hc]; exact e1, e2, e3, e4⟩
  refine ⟨r', fun ns => ((get? (render ns) (classes B).2).bind (nodeSpec (isSpec (classes B).2) g.bases 2)).getD 0, ?_, ?_,
    hmem, fun ns hm => ?_⟩
  · unfold targetsOf
    rw [h2 [], List.nil_append, List.map_map]
    refine congrArg some (List.map_congr_left fun ns hm => ?_)
    obtain ⟨s, e, -⟩ := hsp ns hm
    simp only [Function.comp, e, Option.getD_some]
  · exact List.Pairwise.of_map render (fun a b h e => h (congrArg render e)) (h4 hnd)
  · obtain ⟨s, e, h⟩ := hsp ns hm
    simp only [e, Option.getD_some]
    exact h

/-! ### Examples -/

/-- `/b` and `/d` stand for `/a`, `/c` stands for `/b`; `/e` and `/f` stand for each other. -/
def exTargets (p : Str) : Option Str :=
  (get? p (["/b", "/c", "/d", "/e", "/f"].zip ["/a", "/b", "/a", "/f", "/e"] |>.map fun x => (x.1.toList, x.2.toList)) : Option Str)

def exTargetNodes : List Str := ["/a", "/b", "/c", "/d", "/e", "/f"].map String.toList

example : ¬ StandsFor exTargetNodes exTargets "/a".toList "/a".toList ∧ exTargetNodes.Nodup ∧
    instanceTargets exTargetNodes exTargets id 7 "/a".toList [] = some (["/b", "/c", "/d"].map String.toList) := by
  refine ⟨fun h => ?_, by decide +kernel, by decide +kernel⟩
  have e : exTargets "/a".toList = none := by decide +kernel
  rcases h with ⟨-, h⟩ | ⟨-, -, h⟩ <;> rw [e] at h <;> cases h

example : StandsFor exTargetNodes exTargets "/e".toList "/e".toList :=
  .more (.one (p := "/f".toList) (by decide +kernel) (by decide +kernel)) (by decide +kernel) (by decide +kernel)

/-- The names of the specs found as instances of a path in a stage of one layer. -/
def exTargetNames (l : Comp.LayerNodes) (p : String) : Option (List (Option Str)) :=
  (Build.compose (fun a b => a == b) Proxies.kidPaths none 60 [l]).bind fun (g, nodes) =>
    (targetsOf nodes g ((keys nodes).filter (· != "/".toList)) 20 p.toList).map fun r =>
      r.map fun o => o.map fun s => Arcs.text (g.attr s NodeData.A_PARENT) ++ '|' :: Arcs.text (g.attr s NodeData.A_NAME)

example : exTargetNames (exMirror false) "/B" = some [some "/|A".toList] ∧
    exTargetNames (exMirror false) "/B/y" = some [some "/A|y".toList] := by decide +kernel

open Build in
example : ∃ n, ∀ fuel ≥ n, ∃ g nodes,
    Build.compose (fun a b => a == b) Proxies.kidPaths none fuel [exMirror false] = some (g, nodes) ∧
    ∀ paths, paths.Nodup → (∀ p ∈ paths, p ∈ keys nodes) → (∀ p ∈ keys nodes, p ≠ "/".toList → p ∈ paths) →
      render [['B'], ['y']] ∈ keys nodes →
      ∃ (r : List (List Str)) (spec : List Str → Nat), targetsOf nodes g paths (paths.length + 1) (render [['B'], ['y']]) =
          some (r.map fun ns => some (spec ns)) ∧ [['A'], ['y']] ∈ r := by
  obtain ⟨n, h⟩ := C153_composed_partial exMirror_tidy exMirror_stale exMirror_named exMirror_separate (fun a b => a == b)
    C79_scan none
  refine ⟨n, fun fuel hf => ?_⟩
  obtain ⟨g, nodes, h1, h2⟩ := h fuel hf
  refine ⟨g, nodes, h1, fun paths hn hp hp' hk => ?_⟩
  obtain ⟨r, spec, h3, -, h4, -⟩ := h2 paths [['B'], ['y']] (paths.length + 1) hn hp hp' (by unfold Names IsName; decide +kernel) hk
    (by omega)
  exact ⟨r, spec, h3, (h4 _).2 exMirror_drawn⟩

/-- C153, where it fails: a node whose instance path composing refuses is still found as an instance. -/
theorem C153_refused_violation : exTargetNames exBehindOwn "/a" = some [some "/a|b".toList] := by decide +kernel

end Nxt.Props
