import Verif.Props.BuildExec
import Verif.Props.FlowReopen
/-!
# Property C150: a stage with instances saved and opened again computes the same
-/
namespace Nxt.Props
open Dict NodeData Mro Rt Spec Flow
open Inherit hiding kept

namespace BuiltFlow
open Build Building Executing ReFlow

variable {b : List Str} {layers layers' : List Comp.LayerNodes} {B B' : BSt} {g g' : Classes}

theorem each_length {α β : Type} {R : α → β → Prop} {as : List α} {bs : List β} (h : Each R as bs) : as.length = bs.length :=
  h.length_eq

/-- The tables of the user at the same path correspond. -/
theorem tables_each (h : Reopened b layers layers') (t : Tidy layers) (hv : FileValues b layers) (W : Whole layers B g)
    (W' : Whole layers' B' g') {p : Str} {c c' : Nat} (hc : (p, c) ∈ (classes B).2) (hc' : (p, c') ∈ (classes B').2) {a : Str}
    (ha : FlowName b a) :
    Each (fun x y => get? a x = get? a y) (tablesOf (classes B).1 (classes B).1.bases c)
      (tablesOf (classes B').1 (classes B').1.bases c') := by
  have hk := user_of_flow ha
  have hT := theirs_user hk
  obtain ⟨n, h1, h2⟩ := W.classed.tables p c hc
  obtain ⟨n', h1', h2'⟩ := W'.classed.tables p c' hc'
  rw [h2, h2']
  refine .cons (by rw [user_own h1 hT, user_own h1' hT]) ?_
  have hE : Each (Reopen.Left b p) (stack layers p) (stack layers' p) := Reopen.reopened_stack h t.good p
  by_cases hs : stack layers p = []
  · have hs' : stack layers' p = [] := by
      rw [← List.length_eq_zero_iff, ← each_length hE, hs]; rfl
    obtain ⟨s, x, e, e1, e2, -⟩ := h1.made hs
    obtain ⟨s', x', e', e1', e2', -⟩ := h1'.made hs'
    rw [e1, e1']
    exact .cons (by rw [e2.user a hT, e2'.user a hT]) .nil
  · have hs' : stack layers' p ≠ [] := fun e => hs (by
      rw [← List.length_eq_zero_iff, each_length hE, e]; rfl)
    rw [(h1.real hs).1, (h1'.real hs').1]
    have hst : ∀ n ∈ stack layers p, ∀ v, get? a n = some v → Spec.kept v = v := by
      intro n hn v hnv
      obtain ⟨T, hT, hm⟩ := mem_stack hn
      exact kept_storable (hv T hT p n hm a v ha hnv)
    revert hst
    generalize stack layers p = x at hE
    generalize stack layers' p = y at hE
    intro hst
    induction hE with
    | nil => exact .nil
    | @cons n n' _ _ e1 _ ih =>
      refine .cons ?_ (ih fun n hn => hst n (List.mem_cons_of_mem _ hn))
      rw [e1.1 a hk]
      cases e : get? a n with
      | none => rfl
      | some v => rw [Option.map_some, hst n List.mem_cons_self v e]

theorem each_at {R : Nat → Nat → Prop} : ∀ (as bs : List Nat), as.length = bs.length →
    (∀ (i : Nat) (a b : Nat), as[i]? = some a → bs[i]? = some b → R a b) → Each R as bs := by
  intro as
  induction as with
  | nil => intro bs hl _; cases bs with
    | nil => exact .nil
    | cons => simp at hl
  | cons a as ih =>
    intro bs hl hi
    cases bs with
    | nil => simp at hl
    | cons b bs =>
      exact .cons (hi 0 a b rfl rfl) (ih bs (by simpa using hl) fun i x y hx hy => hi (i + 1) x y (by simpa using hx) (by simpa using hy))

theorem pair_built (h : Reopened b layers layers') (t : Tidy layers) (hv : FileValues b layers) (R : Ran layers B g)
    (R' : Ran layers' B' g') (hpaths : ∀ p, (get? p (classes B).2).isSome = (get? p (classes B').2).isSome)
    (hal : ∀ ns c c', Names ns → get? (render ns) (classes B).2 = some c → get? (render ns) (classes B').2 = some c' →
        ∀ x ∈ ["_enabled".toList, "_comment".toList, "_code".toList], Alike (g.attr c x) (g'.attr c' x))
    {globals : Dict Str Val} (hok : Dict.Ok globals) :
    Pair b (Twin (classes B).2 (classes B').2 (classes B).1.bases (classes B').1.bases) (classes B).2 (classes B').2
      ⟨g, globals⟩ ⟨g', globals⟩ := by
  have hm := Rebuilding.reopened_matching h t.spec t.good (fun n hn => (t.world n hn).1)
  have W := R.whole
  have W' := R'.whole
  obtain ⟨links, l1⟩ := W.laid
  obtain ⟨links', l1'⟩ := W'.laid
  have hnm : ∀ p c, get? p (classes B).2 = some c → ∃ ns, Names ns ∧ p = render ns := fun p c hc =>
    W.done.path p (W.classed.keys ▸ mem_keys_of_mem (mem_of_get? hc))
  have hcount : ∀ p c c', (p, c) ∈ (classes B).2 → (p, c') ∈ (classes B').2 →
      ((classes B).1.bases c).length = ((classes B').1.bases c').length := by
    intro p c c' hc hc'
    obtain ⟨n, h1, h2⟩ := W.classed.tables p c hc
    obtain ⟨n', h1', h2'⟩ := W'.classed.tables p c' hc'
    have e1 : ((classes B).1.bases c).length = n.bases.length := by
      have := congrArg List.length h2
      simpa [tablesOf] using this
    have e2 : ((classes B').1.bases c').length = n'.bases.length := by
      have := congrArg List.length h2'
      simpa [tablesOf] using this
    rw [e1, e2]
    have hE := each_length (Reopen.reopened_stack h t.good p)
    by_cases hs : stack layers p = []
    · have hs' : stack layers' p = [] := (hm.empty p).1 hs
      obtain ⟨s, x, e, e1, -⟩ := h1.made hs
      obtain ⟨s', x', e', e1', -⟩ := h1'.made hs'
      rw [e1, e1']; rfl
    · rw [(h1.real hs).1, (h1'.real fun e => hs ((hm.empty p).2 e)).1, hE]
  refine ⟨twin_oneToOne l1 l1', hpaths, fun p c c' hc hc' => .comp (mem_of_get? hc) (mem_of_get? hc'), fun p c c' hp hp' => ?_,
    fun d d' a hdd ha => ?_, fun p c c' hp hp' => ?_, fun p c c' hp hp' => ?_, fun _ => rfl, hok, hok⟩
  · obtain ⟨ns, hN, rfl⟩ := hnm p c hp
    refine ⟨_, _, W.order ns c hN (mem_of_get? hp), W'.order ns c' hN (mem_of_get? hp'), ?_⟩
    rw [hm.paths]
    refine Each.append ?_ (.cons .root .nil)
    generalize chain (srcOf (instPathOf layers')) ns = ls
    unfold blocks
    induction ls with
    | nil => exact .nil
    | cons q ls ih =>
      rw [List.flatMap_cons, List.flatMap_cons]
      refine Each.append ?_ ih
      unfold blockOf
      have hq := hpaths (render q)
      cases e : get? (render q) (classes B).2 with
      | none =>
        rw [e] at hq
        cases e' : get? (render q) (classes B').2 with
        | none => exact .nil
        | some d' => rw [e'] at hq; cases hq
      | some d =>
        rw [e] at hq
        obtain ⟨d', e'⟩ := Option.isSome_iff_exists.1 hq.symm
        rw [e']
        have hd := mem_of_get? e
        have hd' := mem_of_get? e'
        exact .cons (.comp hd hd') (each_at _ _ (hcount _ _ _ hd hd') fun i x y hx hy => .spec hd hd' hx hy)
  · have hu := theirs_untouched (theirs_user (user_of_flow ha))
    show get? a (g.own d) = get? a (g'.own d')
    rw [W.own d a hu, W'.own d' a hu]
    refine twin_own (S := fun t t' => get? a t = get? a t') ?_ (fun p c c' hc hc' => tables_each h t hv W W' hc hc' ha) hdd
    rw [W.classed.node, W'.classed.node]
  · obtain ⟨ns, hN, rfl⟩ := hnm p c hp
    exact hal ns c c' hN hp hp' _ (by simp)
  · obtain ⟨ns, hN, rfl⟩ := hnm p c hp
    rcases hal ns c c' hN hp hp' "_enabled".toList (by simp) with e | ⟨e1, e2⟩
    · show g.attr c "_enabled".toList = .bool false ↔ g'.attr c' "_enabled".toList = .bool false
      rw [e]
    · constructor
      · intro (hh : g.attr c "_enabled".toList = .bool false); rw [hh] at e1; cases e1
      · intro (hh : g'.attr c' "_enabled".toList = .bool false); rw [hh] at e2; cases e2

end BuiltFlow
open BuiltFlow Executing

/-- C150: a stage with separate instances, saved and opened again, executes from any node the same nodes, with the same
outcomes, and leaves every node, copies below instances included, with the values it would have had.  Values must be such
as a file can hold (`C140_falsy_violation`), and no two nodes may execute after the same root
(`C138_two_next_violation`).  Missing: instances of instances, and code which deletes attributes of its frame. -/
theorem C150_computes_partial {b : List Str} {layers layers' : List Comp.LayerNodes} (h : Reopened b layers layers') (t : Tidy layers)
    (hs : NoStale layers) (hn : Named layers) (C : Separate (instPathOf layers)) (hv : FileValues b layers)
    (hone : ∀ p q n m s, p ≠ q → n ∈ stack layers p → m ∈ stack layers q → getAttr n "_execute_in".toList = .str s →
      getAttr m "_execute_in".toList ≠ .str s) (same same' : Str → Str → Bool)
    (kids kids' : List Str → Str → List Str) (hk : GivesKids kids) (hk' : GivesKids kids') (real real' : Option Str) :
    ∃ n, ∀ fuel ≥ n, ∃ g nodes g' nodes', Build.compose same kids real fuel layers = some (g, nodes) ∧
      Build.compose same' kids' real' fuel layers' = some (g', nodes') ∧
      ∀ (e e' : Env), e.builtins = b → Keeps e → LookupOnly e → SameTexts nodes nodes' e e' →
      ∀ (clock clock' : State → Int) (globals : Dict Str Val), Dict.Ok globals →
      ∀ ka kb, KidsOk (Composite.execTable nodes g) ka → KidsOk (Composite.execTable nodes' g') kb →
      ∀ f start ps, Exec.execOrder (Composite.execTable nodes g) ka f start = some ps →
        Exec.execOrder (Composite.execTable nodes' g') kb f start = some ps ∧
        let r := execute e nodes clock ps ⟨g, globals⟩ []
        let r' := execute e' nodes' clock' ps ⟨g', globals⟩ []
        r.1 = r'.1 ∧ r.2.2.2 = r'.2.2.2 ∧ LooksAlike b nodes nodes' r.2.1.classes r'.2.1.classes ∧
          SameDict r.2.1.globals r'.2.1.globals := by
  obtain ⟨n1, h1⟩ := C149_order_partial h t hs hn C hone same same' kids kids' hk hk' real real'
  obtain ⟨n2, h2⟩ := ran_again h t hs hn C same same' hk hk' real real'
  refine ⟨max n1 n2, fun fuel hf => ?_⟩
  obtain ⟨g0, nodes0, g1, nodes1, a1, a2, a3⟩ := h1 fuel (by omega)
  obtain ⟨B, g, B', g', b1, b2, R, R', S, hal⟩ := h2 fuel (by omega)
  obtain ⟨e1, e2⟩ := Prod.mk.inj (Option.some.inj (b1.symm.trans a1))
  obtain ⟨e3, e4⟩ := Prod.mk.inj (Option.some.inj (b2.symm.trans a2))
  subst e1 e2 e3 e4
  refine ⟨g, _, g', _, b1, b2, fun e e' hb hkp hx he clock clock' globals hok ka kb KA KB f start ps hps => ⟨?_, ?_⟩⟩
  · rw [← a3 ka kb KA KB f start]; exact hps
  · have hpaths : ∀ p, (get? p (Build.classes B).2).isSome = (get? p (Build.classes B').2).isSome := by
      intro p
      have := S.paths p
      rw [ReopenRun.keys_execTable, ReopenRun.keys_execTable, ← get?_isSome, ← get?_isSome] at this
      rw [Bool.eq_iff_iff]
      exact this
    obtain ⟨k1, k2, k3⟩ := ReFlow.pair_execute hb hkp hx he clock clock' ps (pair_built h t hv R R' hpaths hal hok)
      (ts := []) (ts' := []) (fun _ h => nomatch h) (fun _ h => nomatch h)
    exact ⟨k1, k2, k3.alike, k3.globals⟩

/-! ## Examples -/

theorem exMirror_values : FileValues [] [exMirror false] := by
  intro T hT p n hm a v ha hv
  rw [List.mem_singleton.1 hT] at hm
  have key : ∀ e ∈ exMirror false, ∀ b ∈ e.2, b.1 ∈ reservedNames ∨ b.2.truthy = true ∧ b.2.serialisable = true := by
    decide +kernel
  rcases key _ hm _ (mem_of_get? hv) with h | h
  · exact absurd h ha.2.1
  · exact .inr h

/-- What running a node of the example and the nodes below it leaves as the number `x` of a node. -/
def exMirrorLeft (layers : List Comp.LayerNodes) (p q : Str) : Option Int :=
  (Build.compose (fun a b => a == b) Proxies.kidPaths none 20 layers).bind fun r =>
    (Exec.execOrder (Composite.execTable r.2 r.1) (Tree.scan (fun a b => a == b) (Composite.execTable r.2 r.1)) 20 p).bind fun ps =>
      (get? q r.2).bind fun c =>
        match (execute exAddOneEnv r.2 (fun _ => 0) ps ⟨r.1, []⟩ []).2.1.classes.attr c ['x'] with
        | .num n => some n
        | _ => none

/-- Running `/A` adds one there; running `/B` adds one to the `x` which `/A`
sees. -/
example : exMirrorLeft [exMirror false] "/A".toList "/A".toList = some 8 ∧
    exMirrorLeft [exMirror false] "/A".toList "/B".toList = some 7 ∧
    exMirrorLeft [exMirror false] "/B".toList "/A".toList = some 8 := by
  decide +kernel

/-- The example meets the hypotheses of C150. -/
example (layers' : List Comp.LayerNodes) (h : Reopened [] [exMirror false] layers') :=
  C150_computes_partial h exMirror_tidy exMirror_stale exMirror_named exMirror_separate exMirror_values
    (fun p q n m s _ hn _ e => by rw [exMirror_silent (by simp) hn] at e; cases e)
    (fun a b => a == b) (fun a b => a == b) Proxies.kidPaths Proxies.kidPaths C79_scan C79_scan none none

end Nxt.Props
