import Verif.Props.Flow
import Verif.Props.ExecReopen
import Verif.Spec.FlowReopen
/-!
# Property C140: a graph saved and opened again computes the same
-/
namespace Nxt.Props
open Dict NodeData Mro Rt Spec Flow
open Inherit hiding kept

namespace ReFlow

/-- Two states of two stages, related class by class. -/
structure Pair (b : List Str) (R : Nat → Nat → Prop) (nodes nodes' : Dict Str Nat) (s s' : State) : Prop where
  one : OneToOne R
  paths : ∀ p, (get? p nodes).isSome = (get? p nodes').isSome
  rel : ∀ p c c', get? p nodes = some c → get? p nodes' = some c' → R c c'
  orders : ∀ p c c', get? p nodes = some c → get? p nodes' = some c' →
    ∃ l l', s.classes.mro c = some l ∧ s'.classes.mro c' = some l' ∧ Each R l l'
  values : ∀ c c' a, R c c' → FlowName b a → get? a (s.classes.own c) = get? a (s'.classes.own c')
  code : ∀ p c c', get? p nodes = some c → get? p nodes' = some c' →
    Alike (s.classes.attr c "_code".toList) (s'.classes.attr c' "_code".toList)
  enabled : ∀ p c c', get? p nodes = some c → get? p nodes' = some c' →
    (s.classes.attr c "_enabled".toList = .bool false ↔ s'.classes.attr c' "_enabled".toList = .bool false)
  globals : SameDict s.globals s'.globals
  ok : Dict.Ok s.globals
  ok' : Dict.Ok s'.globals

theorem findSome?_each {R : Nat → Nat → Prop} {f f' : Nat → Option Val} {l l' : List Nat} (h : Each R l l')
    (hf : ∀ a b, R a b → f a = f' b) : l.findSome? f = l'.findSome? f' := by
  induction h with
  | nil => rfl
  | cons h1 _ ih => rw [List.findSome?_cons, List.findSome?_cons, hf _ _ h1, ih]

section
variable {b : List Str} {R : Nat → Nat → Prop} {nodes nodes' : Dict Str Nat} {s s' : State}

theorem Pair.seen (h : Pair b R nodes nodes' s s') {p : Str} {c c' : Nat} (hc : get? p nodes = some c)
    (hc' : get? p nodes' = some c') {a : Str} (ha : FlowName b a) : s.classes.attr? c a = s'.classes.attr? c' a := by
  obtain ⟨l, l', h1, h2, h3⟩ := h.orders p c c' hc hc'
  unfold Classes.attr?
  rw [h1, h2, Option.bind_some, Option.bind_some]
  exact findSome?_each h3 fun d d' hd => h.values d d' a hd ha

theorem Pair.alike (h : Pair b R nodes nodes' s s') : LooksAlike b nodes nodes' s.classes s'.classes :=
  ⟨h.paths, fun p c c' hc hc' => ⟨fun _ ha => h.seen hc hc' ha, h.code p c c' hc hc'⟩⟩

theorem alike_cached {e e' : Env} {g g' : Classes} (h : LooksAlike b nodes nodes' g g') (c c' : Nat) :
    LooksAlike b nodes nodes' (cached e g c) (cached e' g' c') := by
  have hcode : ("_code".toList) ≠ "_cached_code".toList := by decide +kernel
  refine ⟨h.1, fun p d d' hd hd' => ⟨fun a ha => ?_, ?_⟩⟩
  · rw [attr?_cached _ _ _ ha.ne_cached, attr?_cached _ _ _ ha.ne_cached]
    exact (h.2 p d d' hd hd').1 a ha
  · unfold Classes.attr
    rw [attr?_cached _ _ _ hcode, attr?_cached _ _ _ hcode]
    exact (h.2 p d d' hd hd').2

theorem changes_congr {eq : Val → Val → Bool} {x x' y y' : Str → Option Val} {a : Str} (h : x a = x' a) (h' : y a = y' a) :
    changes eq x y a = changes eq x' y' a := by
  unfold changes
  rw [h, h']

theorem sameDict_keys {d d' : Dict Str Val} (h : SameDict d d') (a : Str) : a ∈ keys d ↔ a ∈ keys d' := by
  rw [← get?_isSome, ← get?_isSome, h a]

theorem sameDict_clean {lines : List Str} {good good' : List Str} {d d' : Dict Str Val} (hg : ∀ k, k ∈ good ↔ k ∈ good')
    (hd : SameDict d d') (ho : Dict.Ok d) (ho' : Dict.Ok d') :
    SameDict (cleanGlobals lines good d) (cleanGlobals lines good' d') := by
  classical
  intro a
  rw [C41_exact_partial _ _ _ ho, C41_exact_partial _ _ _ ho', hd a]
  simp only [hg a]

theorem ok_clean {lines good : List Str} {d : Dict Str Val} (h : Dict.Ok d) : Dict.Ok (cleanGlobals lines good d) := by
  unfold cleanGlobals
  generalize (keys d).filter _ = ks
  induction ks generalizing d with
  | nil => exact h
  | cons k ks ih => exact ih (ok_erase h k)

theorem attr_kept {g g' : Classes} (hb : g'.bases = g.bases) (hs : g'.size = g.size) {a : Str}
    (h : ∀ d, get? a (g'.own d) = get? a (g.own d)) (c : Nat) : g'.attr c a = g.attr c a := by
  unfold Classes.attr Classes.attr?
  rw [Flowing.mro_congr hb hs]
  simp only [h]

/-- One run on both sides. -/
theorem pair_run {e e' : Env} (hb : e.builtins = b) (hk : Keeps e) (hx : LookupOnly e) (ht : SameTexts nodes nodes' e e')
    (h : Pair b R nodes nodes' s s') {p : Str} {c c' : Nat} (hc : get? p nodes = some c) (hc' : get? p nodes' = some c') :
    outcome (runNode e p c s).1 = outcome (runNode e' p c' s').1 ∧
      Pair b R nodes nodes' (runNode e p c s).2 (runNode e' p c' s').2 := by
  classical
  subst hb
  obtain ⟨he, ht⟩ := ht
  have hexec : e'.exec = e.exec := by rw [he]
  have hbu : e'.builtins = e.builtins := by rw [he]
  have hlit : e'.lit = e.lit := by rw [he]
  have heq : e'.eq = e.eq := by rw [he]
  have hlines : e'.lines = e.lines := by rw [he]
  have hag : e'.asGlobal = e.asGlobal := by rw [he]
  have hso : e'.selfObj = e.selfObj := by rw [he]
  have hk' : Keeps e' := by unfold Keeps; rw [hexec]; exact hk
  have hcode := (ht _ _ h.alike p c c' hc hc').1
  have hres := (ht _ _ (alike_cached (e := e) (e' := e') h.alike c c') p c c' hc hc').2
  obtain ⟨l, l', m1, m2, m3⟩ := h.orders p c c' hc hc'
  obtain ⟨rest, hm⟩ := Flowing.mro_head (g := s.classes) (c := c) (by rw [m1]; rfl)
  obtain ⟨rest', hm'⟩ := Flowing.mro_head (g := s'.classes) (c := c') (by rw [m2]; rfl)
  have hseen : ∀ a, FlowName e.builtins a → s.classes.attr? c a = s'.classes.attr? c' a := fun a ha => h.seen hc hc' ha
  have hcc := h.rel p c c' hc hc'
  obtain ⟨r1, r2, r3, r4⟩ := runNode_rest e hk p c s
  obtain ⟨q1, q2, q3, q4⟩ := runNode_rest e' hk' p c' s'
  have hint : ∀ x ∈ reservedNames, x ≠ "_cached_code".toList →
      (∀ d, (runNode e p c s).2.classes.attr d x = s.classes.attr d x) ∧
      ∀ d, (runNode e' p c' s').2.classes.attr d x = s'.classes.attr d x := by
    intro x hx1 hx2
    refine ⟨attr_kept r2 r3 fun d => ?_, attr_kept q2 q3 fun d => ?_⟩
    · by_cases hd : d = c
      · rw [hd]; exact r4 x hx1 hx2
      · rw [r1 d hd]
    · by_cases hd : d = c'
      · rw [hd]; exact q4 x hx1 hx2
      · rw [q1 d hd]
  have key : outcome (runNode e p c s).1 = outcome (runNode e' p c' s').1 ∧
      (∀ a, FlowName e.builtins a → get? a ((runNode e p c s).2.classes.own c) = get? a ((runNode e' p c' s').2.classes.own c')) ∧
      SameDict (runNode e p c s).2.globals (runNode e' p c' s').2.globals ∧
      Dict.Ok (runNode e p c s).2.globals ∧ Dict.Ok (runNode e' p c' s').2.globals := by
    have f1 := runNode_full e hk p hm
    have f2 := runNode_full e' hk' p hm'
    simp only [hexec, hbu, hlit, heq, hlines, hag, hso, ← hcode, ← hres] at f1 f2
    rcases f1 with ⟨⟨a, v, a1, a2, a3⟩, a4, a5, a6⟩ | ⟨b0, f, b1, b2, b3, b4, b5⟩
    · rcases f2 with ⟨-, c4, c5, c6⟩ | ⟨d0, -⟩
      · refine ⟨a4.trans c4.symm, fun a ha => ?_, ?_, ?_, ?_⟩
        · rw [a5 a ha, c5 a ha]; exact h.values c c' a hcc ha
        · rw [a6, c6]; exact h.globals
        · rw [a6]; exact h.ok
        · rw [c6]; exact h.ok'
      · exact absurd a3 (d0 a v a1 ((hseen a a1).symm.trans a2))
    · rcases f2 with ⟨⟨a, v, a1, a2, a3⟩, -⟩ | ⟨-, f', d1, d2, d3, d4, d5⟩
      · exact absurd a3 (b0 a v a1 ((hseen a a1).trans a2))
      · have hself : SameDict f.self f'.self := by
          intro a
          rw [b2, d2]
          by_cases ha : FlowName e.builtins a
          · rw [if_pos ha, if_pos ha, hseen a ha]
          · rw [if_neg ha, if_neg ha]
        have hgl : SameDict f.globals f'.globals := by
          intro a
          rw [b1, d1, get?_set, get?_set, h.globals a]
        obtain ⟨x1, x2, x3⟩ := hx.1 (e.code s.classes c) f f' hself hgl
        have o1 : Dict.Ok (e.exec (e.code s.classes c) f).1.globals := hx.2 _ _ (by rw [b1]; exact ok_set h.ok _ _)
        have o2 : Dict.Ok (e.exec (e.code s.classes c) f').1.globals := hx.2 _ _ (by rw [d1]; exact ok_set h.ok' _ _)
        refine ⟨b3.trans (x1.trans d3.symm), fun a ha => ?_, ?_, ?_, ?_⟩
        · rw [b4 a ha, d4 a ha, x1, changes_congr (x := fun a => get? a f.self) (x' := fun a => get? a f'.self)
            (y := fun a => get? a (e.exec (e.code s.classes c) f).1.self) (y' := fun a => get? a (e.exec (e.code s.classes c) f').1.self)
            (hself a) (x2 a), h.values c c' a hcc ha]
        · rw [b5, d5]
          split
          · exact x3
          · exact sameDict_clean (fun k => sameDict_keys h.globals k) x3 o1 o2
        · rw [b5]
          split
          · exact o1
          · exact ok_clean o1
        · rw [d5]
          split
          · exact o2
          · exact ok_clean o2
  obtain ⟨k1, k2, k3, k4, k5⟩ := key
  refine ⟨k1, h.one, h.paths, h.rel, fun q d d' hd hd' => ?_, fun d d' a hdd ha => ?_, fun q d d' hd hd' => ?_, fun q d d' hd hd' => ?_,
    k3, k4, k5⟩
  · rw [Flowing.mro_congr r2 r3, Flowing.mro_congr q2 q3]
    exact h.orders q d d' hd hd'
  · by_cases hdc : d = c
    · have := (h.one d d' c c' hdd hcc).1 hdc
      subst hdc this
      exact k2 a ha
    · have : d' ≠ c' := fun hh => hdc ((h.one d d' c c' hdd hcc).2 hh)
      rw [r1 d hdc, q1 d' this]
      exact h.values d d' a hdd ha
  · obtain ⟨i1, i2⟩ := hint "_code".toList (by decide +kernel) (by decide +kernel)
    rw [i1, i2]
    exact h.code q d d' hd hd'
  · obtain ⟨i1, i2⟩ := hint "_enabled".toList (by decide +kernel) (by decide +kernel)
    rw [i1, i2]
    exact h.enabled q d d' hd hd'

/-- One step of the loop whose run is timed. -/
theorem loop_step {σ : Type} {look : σ → Str → Option Val} {run : Str → σ → Exec.Times → Exec.Outcome × σ × Exec.Times}
    {clock : σ → Int} {p : Str} {ps : List Str} {s : σ} {ts ts2 : Exec.Times} {v : Val} {d : Int} (hv : look s p = some v)
    (hoff : ¬ v = .bool false)
    (h1 : Exec.exit (run p s (Exec.enter ts p (clock s))).2.2 p (clock (run p s (Exec.enter ts p (clock s))).2.1) = .ok ts2)
    (h2 : Exec.runTime ts2 p = .ok d) :
    Exec.execLoop look run clock (p :: ps) s ts =
      match (run p s (Exec.enter ts p (clock s))).1 with
      | .exitGraph => (.exitGraph, (run p s (Exec.enter ts p (clock s))).2.1, ts2, [(p, (run p s (Exec.enter ts p (clock s))).1)])
      | .error => (.error, (run p s (Exec.enter ts p (clock s))).2.1, ts2, [(p, (run p s (Exec.enter ts p (clock s))).1)])
      | _ =>
        let rest := Exec.execLoop look run clock ps (run p s (Exec.enter ts p (clock s))).2.1 ts2
        (rest.1, rest.2.1, rest.2.2.1, (p, (run p s (Exec.enter ts p (clock s))).1) :: rest.2.2.2) := by
  rw [Exec.execLoop]
  split
  · rename_i hh
    rw [hv] at hh
    exact absurd (Option.some.inj hh) hoff
  · rename_i hh
    rw [hv] at hh
    cases hh
  · simp only []
    rw [h1]
    simp only []
    rw [h2]
    simp only []
    cases (run p s (Exec.enter ts p (clock s))).1 <;> rfl

/-- The executions of both sides. -/
theorem pair_execute {e e' : Env} (hb : e.builtins = b) (hk : Keeps e) (hx : LookupOnly e) (ht : SameTexts nodes nodes' e e')
    (clock clock' : State → Int) (ps : List Str) (h : Pair b R nodes nodes' s s') {ts ts' : Exec.Times}
    (hc : AllClosed ts) (hc' : AllClosed ts') :
    let r := execute e nodes clock ps s ts
    let r' := execute e' nodes' clock' ps s' ts'
    r.1 = r'.1 ∧ r.2.2.2 = r'.2.2.2 ∧ Pair b R nodes nodes' r.2.1 r'.2.1 := by
  have hkt : ∀ (e : Env) (nodes : Dict Str Nat), KeepsTimes (runAt e nodes) :=
    fun e nodes p s ts => ⟨[], by unfold runAt; cases get? p nodes <;> simp, by intro e he; cases he⟩
  unfold execute
  induction ps generalizing s s' ts ts' with
  | nil => exact ⟨rfl, rfl, h⟩
  | cons p ps ih =>
    have hp := h.paths p
    cases e1 : get? p nodes with
    | none =>
      rw [e1] at hp
      have e2 : get? p nodes' = none := by
        cases e2 : get? p nodes' with
        | none => rfl
        | some c' => rw [e2] at hp; cases hp
      have l1 : enabledAt nodes s p = none := by unfold enabledAt; rw [e1]; rfl
      have l2 : enabledAt nodes' s' p = none := by unfold enabledAt; rw [e2]; rfl
      rw [Exec.execLoop, Exec.execLoop, l1, l2]
      exact ⟨rfl, rfl, h⟩
    | some c =>
      rw [e1] at hp
      obtain ⟨c', e2⟩ := Option.isSome_iff_exists.1 hp.symm
      have l1 : enabledAt nodes s p = some (s.classes.attr c A_ENABLED) := by unfold enabledAt; rw [e1]; rfl
      have l2 : enabledAt nodes' s' p = some (s'.classes.attr c' A_ENABLED) := by unfold enabledAt; rw [e2]; rfl
      have hen := h.enabled p c c' e1 e2
      by_cases hoff : s.classes.attr c A_ENABLED = .bool false
      · have hoff' : s'.classes.attr c' A_ENABLED = .bool false := hen.1 hoff
        rw [Exec.execLoop, Exec.execLoop, l1, l2, hoff, hoff']
        exact ih h hc hc'
      · have hoff' : ¬ s'.classes.attr c' A_ENABLED = .bool false := fun hh => hoff (hen.2 hh)
        obtain ⟨k1, k2⟩ := pair_run hb hk hx ht h e1 e2
        obtain ⟨more, d, n1, n2, n3⟩ := loop_node (runAt e nodes) (hkt e nodes) clock p s ts hc
        obtain ⟨more', d', n1', n2', n3'⟩ := loop_node (runAt e' nodes') (hkt e' nodes') clock' p s' ts' hc'
        have hr : ∀ t, runAt e nodes p s t = (outcome (runNode e p c s).1, (runNode e p c s).2, t) := by
          intro t; unfold runAt; rw [e1]
        have hr' : ∀ t, runAt e' nodes' p s' t = (outcome (runNode e p c s).1, (runNode e' p c' s').2, t) := by
          intro t; unfold runAt; rw [e2, k1]
        rw [loop_step (ps := ps) l1 hoff n1 n3, loop_step (ps := ps) l2 hoff' n1' n3']
        simp only [hr, hr'] at n2 n2' ⊢
        have ihn := ih k2 n2 n2'
        cases outcome (runNode e p c s).1
        · exact ⟨ihn.1, by simp only [ihn.2.1], ihn.2.2⟩
        · exact ⟨ihn.1, by simp only [ihn.2.1], ihn.2.2⟩
        · exact ⟨rfl, rfl, k2⟩
        · exact ⟨rfl, rfl, k2⟩

end

theorem user_of_flow {b : List Str} {a : Str} (h : FlowName b a) : UserName b a := by
  refine ⟨h.1, h.2.1, fun m _ pre hh => h.2.2 ⟨pre ++ ("_".toList ++ m), ?_⟩⟩
  rw [hh, List.append_assoc, List.append_assoc, List.append_assoc]

theorem kept_storable {v : Val} (h : v = .none ∨ v.truthy = true ∧ v.serialisable = true) : kept v = v := by
  unfold kept
  rcases h with rfl | ⟨h1, h2⟩
  · rfl
  · rw [h1, h2]; rfl

/-- A graph before and after it is saved and opened again. -/
theorem pair_reopened {b : List Str} {layers layers' : List Comp.LayerNodes} (h : Reopened b layers layers') (t : Tidy layers)
    (hv : FileValues b layers)
    {table table' : List (Str × Nat)} (ht : table.Perm (classesOf layers).2) (ht' : table'.Perm (classesOf layers').2) {s s' : State}
    (hc : postProxy (classesOf layers).2 (sortInstances (classesOf layers).2 table (classesOf layers).1) (classesOf layers).1 = some s.classes)
    (hc' : postProxy (classesOf layers').2 (sortInstances (classesOf layers').2 table' (classesOf layers').1) (classesOf layers').1 = some s'.classes)
    (hg : SameDict s.globals s'.globals) (hok : Dict.Ok s.globals) (hok' : Dict.Ok s'.globals) :
    ∃ R, Pair b R (classesOf layers).2 (classesOf layers').2 s s' := by
  have hw := fun n hn => (t.world n hn).1
  have hs := t.spec
  have hs' := Reopen.reopened_specs h t.good
  have ho : (sortInstances (classesOf layers).2 table (classesOf layers).1).Perm (classesOf layers).2 :=
    (C16_stable_sort _ table).1.trans ht
  have ho' : (sortInstances (classesOf layers').2 table' (classesOf layers').1).Perm (classesOf layers').2 :=
    (C16_stable_sort _ table').1.trans ht'
  have hA : Reopen.Akin b ["_instance".toList] layers layers' := Reopen.reopened_akin h t.good (by decide +kernel) (by
    intro a ha _
    rw [List.mem_singleton.1 ha]; exact hw)
  have htw := Reopen.twins_akin hs hs' hA (List.mem_singleton.2 rfl)
  obtain ⟨h1, h2, h3, h4, _⟩ := classesOf_ready hs
  obtain ⟨k1, k2, k3, k4, _⟩ := classesOf_ready hs'
  obtain ⟨_, hroot, htab, _⟩ := classesOf_spec hs
  obtain ⟨_, hroot', htab', _⟩ := classesOf_spec hs'
  obtain ⟨links, l1, l2, l3, l4⟩ := postProxy_done h1 h2 h3 h4 ho hc
  obtain ⟨links', m1, m2, m3, m4⟩ := postProxy_done k1 k2 k3 k4 ho' hc'
  refine ⟨Twin (classesOf layers).2 (classesOf layers').2 (classesOf layers).1.bases (classesOf layers').1.bases,
    twin_oneToOne l1 m1, htw.paths, fun p c c' hc hc' => .comp (mem_of_get? hc) (mem_of_get? hc'), fun p c c' hp hp' => ?_,
    fun d d' a hdd ha => ?_, fun p c c' hp hp' => ?_, fun p c c' hp hp' => ?_, hg, hok, hok'⟩
  · have hp := mem_of_get? hp
    have hp' := mem_of_get? hp'
    obtain ⟨l, hl⟩ := l2 p c hp
    obtain ⟨l', hl'⟩ := m2 p c' hp'
    exact ⟨l, l', (Laid.mro_iff l1 (l1.comp p c hp).2.1).2 hl, (Laid.mro_iff m1 (m1.comp p c' hp').2.1).2 hl',
      twin_orders htw h2 l1 l2 l4 m1 m2 m4 hl c' l' (.comp hp hp') hl'⟩
  · have hk := user_of_flow ha
    have hk' := untouched (Reopen.user_untouched hk)
    rw [l3 d a hk', m3 d' a hk']
    refine twin_own (S := fun t t' => get? a t = get? a t') ?_ (fun p c c' hc hc' => ?_) hdd
    · rw [hroot, hroot', Reopen.class_user hk]
    · rw [(htab p c hc).2, (htab' p c' hc').2]
      refine .cons (by rw [Reopen.own_user hk, Reopen.own_user hk]) ?_
      have hst : ∀ n ∈ stack layers p, ∀ v, get? a n = some v → kept v = v := by
        intro n hn v hnv
        obtain ⟨T, hT, hm⟩ := mem_stack hn
        exact kept_storable (hv T hT p n hm a v ha hnv)
      have := hA p
      revert hst
      generalize stack layers p = x at this
      generalize stack layers' p = y at this
      intro hst
      induction this with
      | nil => exact .nil
      | @cons n n' _ _ e1 _ ih =>
        refine .cons ?_ (ih fun n hn => hst n (List.mem_cons_of_mem _ hn))
        rw [e1.1 a hk]
        cases e : get? a n with
        | none => rfl
        | some v => rw [Option.map_some, hst n List.mem_cons_self v e]
  · exact C128_composed_partial h hs t.good hw ht ht' hc hc' hp hp' (x := "_code".toList) (by simp)
      (fun hh => absurd hh (by decide +kernel))
  · rcases C128_composed_partial h hs t.good hw ht ht' hc hc' hp hp' (x := "_enabled".toList) (by simp)
      (fun _ n hn => (t.world n hn).2.1) with e | ⟨e1, e2⟩
    · rw [e]
    · constructor
      · intro hh; rw [hh] at e1; cases e1
      · intro hh; rw [hh] at e2; cases e2

end ReFlow
open ReFlow

/-- C140: a graph saved and opened again, run on the same nodes, ends the same way, runs the same nodes with the same
outcomes, and leaves every node with the values it would have had and the globals as they would have been; the nodes may
be found in any order.  Values must be such as a file can hold (see `C140_falsy_violation`), what texts and code resolve
to must follow from the values and code of the nodes by path, and code must not depend on the order of names in a table.
Missing: that the opened graph composes (`C128_success_violation`), and code which deletes attributes of its frame. -/
theorem C140_computes_partial {b : List Str} {layers layers' : List Comp.LayerNodes} (h : Reopened b layers layers') (t : Tidy layers)
    (hv : FileValues b layers)
    {table table' : List (Str × Nat)} (ht : table.Perm (classesOf layers).2) (ht' : table'.Perm (classesOf layers').2) {s s' : State}
    (hc : postProxy (classesOf layers).2 (sortInstances (classesOf layers).2 table (classesOf layers).1) (classesOf layers).1 = some s.classes)
    (hc' : postProxy (classesOf layers').2 (sortInstances (classesOf layers').2 table' (classesOf layers').1) (classesOf layers').1 = some s'.classes)
    (hg : SameDict s.globals s'.globals) (hok : Dict.Ok s.globals) (hok' : Dict.Ok s'.globals)
    {e e' : Env} (hb : e.builtins = b) (hk : Keeps e) (hx : LookupOnly e)
    (he : SameTexts (classesOf layers).2 (classesOf layers').2 e e') (clock clock' : State → Int) (ps : List Str)
    {ts ts' : Exec.Times} (hts : AllClosed ts) (hts' : AllClosed ts') :
    let r := execute e (classesOf layers).2 clock ps s ts
    let r' := execute e' (classesOf layers').2 clock' ps s' ts'
    r.1 = r'.1 ∧ r.2.2.2 = r'.2.2.2 ∧
      LooksAlike b (classesOf layers).2 (classesOf layers').2 r.2.1.classes r'.2.1.classes ∧
      SameDict r.2.1.globals r'.2.1.globals := by
  obtain ⟨R, hp⟩ := pair_reopened h t hv ht ht' hc hc' hg hok hok'
  obtain ⟨h1, h2, h3⟩ := pair_execute hb hk hx he clock clock' ps hp hts hts'
  exact ⟨h1, h2, h3.alike, h3.globals⟩

/-- C140: if what is instanced is always plain and no two roots execute after the same one, the graph and the graph saved
and opened again both compose, and executed from any node they run the same nodes with the same outcomes and leave the
same values. -/
theorem C140_plain {b : List Str} {layers layers' : List Comp.LayerNodes} (h : Reopened b layers layers') (t : Tidy layers)
    (hv : FileValues b layers)
    (hplain : ∀ p c d, get? p (classesOf layers).2 = some c →
      instSource (classesOf layers).1 (classesOf layers).2 (classesOf layers).1.bases c = some d →
      Plain (classesOf layers).1 (classesOf layers).2 (classesOf layers).1.bases d)
    (hone : ∀ p q n m s, p ≠ q → n ∈ stack layers p → m ∈ stack layers q → getAttr n "_execute_in".toList = .str s →
      getAttr m "_execute_in".toList ≠ .str s)
    {e e' : Env} (hb : e.builtins = b) (hk : Keeps e) (hx : LookupOnly e)
    (he : SameTexts (classesOf layers).2 (classesOf layers').2 e e') (clock clock' : State → Int)
    {globals : Dict Str Val} (hok : Dict.Ok globals) :
    ∃ g g', postProxy (classesOf layers).2
        (sortInstances (classesOf layers).2 (classesOf layers).2 (classesOf layers).1) (classesOf layers).1 = some g ∧
      postProxy (classesOf layers').2
        (sortInstances (classesOf layers').2 (classesOf layers').2 (classesOf layers').1) (classesOf layers').1 = some g' ∧
      ∀ fuel start ps, Exec.execOrder (Composite.execTable (classesOf layers).2 g)
          (Tree.scan (fun a b => a == b) (Composite.execTable (classesOf layers).2 g)) fuel start = some ps →
        Exec.execOrder (Composite.execTable (classesOf layers').2 g')
          (Tree.scan (fun a b => a == b) (Composite.execTable (classesOf layers').2 g')) fuel start = some ps ∧
        let r := execute e (classesOf layers).2 clock ps ⟨g, globals⟩ []
        let r' := execute e' (classesOf layers').2 clock' ps ⟨g', globals⟩ []
        r.1 = r'.1 ∧ r.2.2.2 = r'.2.2.2 ∧
          LooksAlike b (classesOf layers).2 (classesOf layers').2 r.2.1.classes r'.2.1.classes ∧
          SameDict r.2.1.globals r'.2.1.globals := by
  obtain ⟨g, g', h1, h2, h3⟩ := C138_plain h t hplain hone
  refine ⟨g, g', h1, h2, fun fuel start ps hps => ⟨by rw [← h3]; exact hps, ?_⟩⟩
  exact C140_computes_partial h t hv (List.Perm.refl _) (List.Perm.refl _) (s := ⟨g, globals⟩) (s' := ⟨g', globals⟩) h1 h2
    (fun _ => rfl) hok hok hb hk hx he clock clock' ps (fun _ h => nomatch h) (fun _ h => nomatch h)

/-! ## Examples -/

/-- `/a` with the attribute `x`, to which its code adds; its child `/a/b` does the same. -/
def exAddOne (x : Val) : Comp.LayerNodes :=
  [exOpenSpec [] "" ["a"] [(A_EXECUTE_IN, .none), (A_START, .none)],
   (render [['a']], exInheritSpec [['a']] .none (.list [.str "add".toList])
     [(A_CHILD_ORDER, .list [.str ['b']]), (A_EXECUTE_IN, .none), (A_START, .bool true), (['x'], x)]),
   (render [['a'], ['b']], exInheritSpec [['a'], ['b']] .none (.list [.str "add".toList])
     [(A_CHILD_ORDER, .list []), (A_EXECUTE_IN, .none), (A_START, .none)])]

/-- The code is the first line as it is, texts are themselves.  The one code there is adds one to `x`. -/
def exAddOneEnv : Env :=
  { builtins := [], eq := exFlowEq, layer := none, resolve := fun _ _ s => some s, lit := fun _ => .raw,
    code := fun g c => match g.attr c "_code".toList with | .list (.str s :: _) => s | _ => [],
    lines := fun s => [s], asGlobal := false, selfObj := .none,
    exec := fun code f => if code = "add".toList then
        match get? ['x'] f.self with
        | some (.num n) => (⟨set ['x'] (.num (n + 1)) f.self, f.globals⟩, .ok)
        | _ => (f, .error)
      else (f, .ok) }

theorem exAddOne_keeps : Keeps exAddOneEnv := by
  intro code f a ha
  unfold exAddOneEnv
  simp only []
  split
  · split
    · rw [mem_keys_set]; exact .inr ha
    · exact ha
  · exact ha

theorem exAddOne_lookup : LookupOnly exAddOneEnv := by
  refine ⟨fun code f f' h1 h2 => ?_, fun code f h => ?_⟩
  · unfold exAddOneEnv
    simp only []
    split
    · rw [h1 ['x']]
      generalize get? ['x'] f'.self = v
      cases v with
      | none => exact ⟨rfl, h1, h2⟩
      | some v =>
        cases v with
        | num n => exact ⟨rfl, fun a => by simp only [get?_set, h1 a], h2⟩
        | _ => exact ⟨rfl, h1, h2⟩
    · exact ⟨rfl, h1, h2⟩
  · unfold exAddOneEnv
    simp only []
    split
    · split
      · exact h
      · exact h
    · exact h

theorem exAddOne_texts (nodes nodes' : Dict Str Nat) : SameTexts nodes nodes' exAddOneEnv exAddOneEnv := by
  refine ⟨rfl, fun g g' h p c c' hc hc' => ⟨?_, rfl⟩⟩
  show (match g.attr c "_code".toList with | .list (.str s :: _) => s | _ => []) =
    (match g'.attr c' "_code".toList with | .list (.str s :: _) => s | _ => [])
  rcases (h.2 p c c' hc hc').2 with e | ⟨e1, e2⟩
  · rw [e]
  · have : ∀ v : Val, v.hasOpinion = false → (match v with | .list (.str s :: _) => s | _ => ([] : Str)) = [] := by
      intro v hv
      unfold Val.hasOpinion at hv
      split at hv
      · rfl
      · rfl
      · cases hv
    exact (this _ e1).trans (this _ e2).symm

def exAddOneOrder (p : Str) : List Str :=
  (get? p [("/".toList, [['a']]), ("/a".toList, [['b']])]).getD []

def exAddOneNames : List (List Str) := [[], [['a']], [['a'], ['b']]]

theorem exAddOne_names {ns : List Str} (h : ns ∈ exAddOneNames) : Names ns := by
  have : ∀ ns ∈ exAddOneNames, Names ns := by unfold Names IsName; decide +kernel
  exact this ns h

theorem exAddOne_keys (x : Val) : keys (exAddOne x) = exAddOneNames.map render := rfl

theorem exAddOne_path {x : Val} {p : Str} (h : p ∈ keys (exAddOne x)) : ∃ ns ∈ exAddOneNames, p = render ns := by
  rw [exAddOne_keys] at h
  obtain ⟨ns, hm, e⟩ := List.mem_map.1 h
  exact ⟨ns, hm, e.symm⟩

theorem exAddOne_good (x : Val) : GoodNodes (exAddOne x) exAddOneOrder where
  ok := by
    unfold Dict.Ok
    rw [exAddOne_keys]
    decide +kernel
  path := fun p hp => let ⟨ns, h, e⟩ := exAddOne_path hp; ⟨ns, exAddOne_names h, e⟩
  node := by
    intro p n hn
    have := mem_of_get? hn
    simp only [exAddOne, exOpenSpec, List.mem_cons, List.not_mem_nil, or_false, Prod.mk.injEq] at this
    rcases this with ⟨rfl, rfl⟩ | ⟨rfl, rfl⟩ | ⟨rfl, rfl⟩
    · exact ⟨by unfold Dict.Ok; decide +kernel, by rfl, by rfl⟩
    · refine ⟨?_, by rfl, by rfl⟩
      show List.Nodup [A_NAME, A_PARENT, A_INSTANCE, A_ENABLED, A_COMMENT, A_CODE, A_CHILD_ORDER, A_EXECUTE_IN, A_START, ['x']]
      decide +kernel
    · exact ⟨by unfold Dict.Ok; decide +kernel, by rfl, by rfl⟩
  listed := by
    rw [exAddOne_keys]
    decide +kernel

theorem exAddOne_spec (x : Val) : SpecNodes [exAddOne x] where
  ok := by intro l hl; rw [List.mem_singleton.1 hl]; exact (exAddOne_good x).ok
  path := by
    intro l hl p n hm
    rw [List.mem_singleton.1 hl] at hm
    exact (exAddOne_good x).path p (mem_keys.2 ⟨n, hm⟩)
  parent := by
    intro l hl ns n hN hm
    rw [List.mem_singleton.1 hl] at hm
    simp only [exAddOne, exOpenSpec, List.mem_cons, List.not_mem_nil, or_false, Prod.mk.injEq] at hm
    rcases hm with ⟨e, rfl⟩ | ⟨e, rfl⟩ | ⟨e, rfl⟩ <;>
    rw [Path.render_inj hN (by unfold Names IsName; decide +kernel) e] <;> rfl
  keys := by
    intro l hl p n hm a ha
    rw [List.mem_singleton.1 hl] at hm
    simp only [exAddOne, exOpenSpec, List.mem_cons, List.not_mem_nil, or_false, Prod.mk.injEq] at hm
    simp only [List.map_cons, List.map_nil, List.mem_cons, List.not_mem_nil, or_false] at ha
    rcases hm with ⟨-, rfl⟩ | ⟨-, rfl⟩ | ⟨-, rfl⟩ <;> rcases ha with rfl | rfl | rfl | rfl <;> rfl

theorem exAddOne_tidy (x : Val) : Tidy [exAddOne x] where
  spec := exAddOne_spec x
  good := fun T hT => ⟨exAddOneOrder, by rw [List.mem_singleton.1 hT]; exact exAddOne_good x⟩
  attrs := by
    intro T hT p n hm
    rw [List.mem_singleton.1 hT] at hm
    simp only [exAddOne, exOpenSpec, List.mem_cons, List.not_mem_nil, or_false, Prod.mk.injEq] at hm
    rcases hm with ⟨-, rfl⟩ | ⟨-, rfl⟩ | ⟨-, rfl⟩ <;> exact ⟨rfl, rfl⟩
  closed := by
    intro T hT ns y hN h0 hx
    rw [List.mem_singleton.1 hT] at hx ⊢
    obtain ⟨ms, hm, e⟩ := exAddOne_path hx
    have hms := Path.render_inj hN (exAddOne_names hm) e
    have key : ∀ ms ∈ exAddOneNames, ms.dropLast ≠ [] → render ms.dropLast ∈ exAddOneNames.map render := by decide +kernel
    have := key ms hm
    rw [← hms, List.dropLast_concat] at this
    rw [exAddOne_keys]
    exact this h0
  world := by
    intro n hn
    have : stack [exAddOne x] ['/'] = [(exOpenSpec [] "" ["a"] [(A_EXECUTE_IN, .none), (A_START, .none)]).2] := rfl
    rw [this, List.mem_singleton] at hn
    subst hn
    decide +kernel
  enabled := by
    intro T hT p n hm e
    rw [List.mem_singleton.1 hT] at hm
    simp only [exAddOne, exOpenSpec, List.mem_cons, List.not_mem_nil, or_false, Prod.mk.injEq] at hm
    rcases hm with ⟨-, rfl⟩ | ⟨-, rfl⟩ | ⟨-, rfl⟩ <;> cases e

theorem exAddOne_values : FileValues [] [exAddOne (.num 7)] := by
  intro T hT p n hm a v ha hv
  rw [List.mem_singleton.1 hT] at hm
  have key : ∀ e ∈ exAddOne (.num 7), ∀ b ∈ e.2, b.1 ∈ reservedNames ∨ b.2.truthy = true ∧ b.2.serialisable = true := by
    decide +kernel
  rcases key _ hm _ (mem_of_get? hv) with h | h
  · exact absurd h ha.2.1
  · exact .inr h

/-- How the execution of composed layers ends, which nodes it runs, and the number `x` is at `/a/b` afterwards. -/
def exAddOneRun (layers : List Comp.LayerNodes) : Option (Exec.End × List (Str × Exec.Outcome) × Option (Option Int)) :=
  (postProxy (classesOf layers).2 (sortInstances (classesOf layers).2 (classesOf layers).2 (classesOf layers).1)
    (classesOf layers).1).bind fun g =>
      (Exec.execOrder (Composite.execTable (classesOf layers).2 g)
        (Tree.scan (fun a b => a == b) (Composite.execTable (classesOf layers).2 g)) 9 "/a".toList).map fun ps =>
          let r := execute exAddOneEnv (classesOf layers).2 (fun _ => 0) ps ⟨g, []⟩ []
          (r.1, r.2.2.2, (get? "/a/b".toList (classesOf layers).2).bind (fun c =>
            (r.2.1.classes.attr? c ['x']).map (fun v => match v with | .num n => some n | _ => none)))

/-- A case of `C140_plain`: both nodes add one, also when the graph was saved and opened again. -/
example (layers' : List Comp.LayerNodes) (h : Reopened [] [exAddOne (.num 7)] layers') :
    exAddOneRun layers' = some (.done, [("/a".toList, .ok), ("/a/b".toList, .ok)], some (some 9)) := by
  obtain ⟨g, g', h1, h2, h3⟩ := C140_plain h (exAddOne_tidy (.num 7)) exAddOne_values
    (by
      intro p c d hp hd
      have : ∀ e ∈ (classesOf [exAddOne (.num 7)]).2, instSource (classesOf [exAddOne (.num 7)]).1 (classesOf [exAddOne (.num 7)]).2
          (classesOf [exAddOne (.num 7)]).1.bases e.2 = none := by decide +kernel
      have := this _ (mem_of_get? hp)
      rw [show instSource _ _ _ (p, c).2 = some d from hd] at this
      cases this)
    (by
      intro p q n m s _ hn _ e1 _
      obtain ⟨l, hl, hm⟩ := mem_stack hn
      rw [List.mem_singleton.1 hl] at hm
      have : ∀ e ∈ exAddOne (.num 7), (match getAttr e.2 "_execute_in".toList with | .str _ => false | _ => true) = true := by
        decide +kernel
      have := this _ hm
      simp only [e1] at this
      cases this)
    (e := exAddOneEnv) (e' := exAddOneEnv) rfl exAddOne_keeps exAddOne_lookup (exAddOne_texts _ _) (fun _ => 0) (fun _ => 0) ok_nil
  have h0 : exAddOneRun [exAddOne (.num 7)] = some (.done, [("/a".toList, .ok), ("/a/b".toList, .ok)], some (some 9)) := by decide +kernel
  unfold exAddOneRun at h0 ⊢
  rw [h1, Option.bind_some] at h0
  rw [h2, Option.bind_some]
  obtain ⟨ps, hps, hrest⟩ := Option.map_eq_some_iff.1 h0
  obtain ⟨k1, k2, k3, k4, -⟩ := h3 9 "/a".toList ps hps
  rw [k1, Option.map_some, ← hrest]
  simp only [k2, k3]
  have hp := k4.1 "/a/b".toList
  cases e1 : get? "/a/b".toList (classesOf [exAddOne (.num 7)]).2 with
  | none =>
    rw [e1] at hp
    cases e2 : get? "/a/b".toList (classesOf layers').2 with
    | none => rfl
    | some c' => rw [e2] at hp; cases hp
  | some c =>
    rw [e1] at hp
    obtain ⟨c', e2⟩ := Option.isSome_iff_exists.1 hp.symm
    rw [e2, Option.bind_some, Option.bind_some, (k4.2 _ c c' e1 e2).1 ['x'] ⟨by simp, by decide +kernel, by
      rintro ⟨b, hb⟩
      have := congrArg List.length hb
      rw [List.length_append] at this
      have h1 : (['x'] : Str).length = 1 := rfl
      have h2 : ("__nxt".toList).length = 5 := rfl
      omega⟩]

/-- What is written of `exAddOne (.num 0)`. -/
def exZeroWritten : Dict Str Val :=
  Layer.leftoverLoop ((exAddOne (.num 0)).foldl (fun d pn => set pn.1 (.dict (saveNode [] pn.2)) d) [])
    (["/", "/a", "/a/b"].map String.toList) []

theorem exZeroWritten_eq : LayerData.nodesSaveData [] (exAddOne (.num 0)) = exZeroWritten := by
  have : ((keys ((exAddOne (.num 0)).foldl (fun d pn => Dict.set pn.1 (Val.dict (saveNode [] pn.2)) d) [])).mergeSort strLe)
      = ["/", "/a", "/a/b"].map String.toList := by
    refine List.Perm.eq_of_pairwise (le := fun a b => strLe a b = true) (fun a b _ _ h1 h2 => strLe_antisymm _ _ h1 h2)
      (List.pairwise_mergeSort strLe_trans strLe_total _) (by decide +kernel) ((List.mergeSort_perm _ _).trans ?_)
    decide +kernel
  unfold LayerData.nodesSaveData Layer.orderNodesDict
  rw [this]; rfl

/-- The layer which is loaded. -/
def exZeroAgain : Comp.LayerNodes :=
  (LayerData.loadNodes none (Layer.leftoverLoop exZeroWritten (keys exZeroWritten) []) []).getD []

theorem exZero_reopened : Reopened [] [exAddOne (.num 0)] [exZeroAgain] := by
  refine .cons (file := none) ?_ .nil
  rw [exZeroWritten_eq]
  unfold LayerData.constructNodes Layer.orderNodesDict
  rw [List.mergeSort_of_pairwise (by decide +kernel)]
  have : (LayerData.loadNodes none (Layer.leftoverLoop exZeroWritten (keys exZeroWritten) []) []).isSome = true := by decide +kernel
  obtain ⟨T, hT⟩ := Option.isSome_iff_exists.1 this
  unfold exZeroAgain
  rw [hT]
  rfl

/-- C140, what does not hold: with `x = 0` the nodes add one each; saved and opened again `x` is `None` and the first node
ends with an error. -/
theorem C140_falsy_violation :
    Tidy [exAddOne (.num 0)] ∧ Reopened [] [exAddOne (.num 0)] [exZeroAgain] ∧
    exAddOneRun [exAddOne (.num 0)] = some (.done, [("/a".toList, .ok), ("/a/b".toList, .ok)], some (some 2)) ∧
    exAddOneRun [exZeroAgain] = some (.error, [("/a".toList, .error)], some none) :=
  ⟨exAddOne_tidy (.num 0), exZero_reopened, by decide +kernel, by decide +kernel⟩

end Nxt.Props
