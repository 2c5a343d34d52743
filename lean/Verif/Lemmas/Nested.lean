import Verif.Spec.Nested
import Verif.Lemmas.Times
import Verif.Lemmas.Runtime
/-!
# Lemmas about node code which executes other nodes
-/
namespace Nxt.Nested
open Py Dict Spec

variable {W F V : Type}

/-! ### Relations kept by every step -/

theorem runStmt_rel {R : St W F V → St W F V → Prop} (e : Env W F V) (call : List Str → St W F V → Res × St W F V)
    (refl : ∀ s, R s s) (trans : ∀ a b c, R a b → R b c → R a c)
    (hwork : ∀ s f g, R s { s with frames := putFrame s.self f s.frames, globals := g })
    (hworld : ∀ (s : St W F V) w, R s { s with world := w }) (hcall : ∀ ps s, R s (call ps s).2) (s : St W F V)
    (st : Stmt W F V) : R s (runStmt e call s st).2 := by
  cases st with
  | work f =>
    simp only [runStmt]
    split
    · exact refl s
    · exact hwork _ _ _
  | call c pa ps start =>
    have h : R s (match request e s.world ps start with
      | none => ((.error [], s) : Res × St W F V)
      | some ps => call ps { s with world := pa s.world }).2 := by
      split
      · exact refl s
      · exact trans _ _ _ (hworld s _) (hcall _ _)
    simp only [runStmt]
    split <;> exact h

theorem runLines_each {R : St W F V → St W F V → Prop} (e : Env W F V) (call : List Str → St W F V → Res × St W F V)
    (refl : ∀ s, R s s) (trans : ∀ a b c, R a b → R b c → R a c) (ls : List (Line W F V))
    (hst : ∀ l ∈ ls, ∀ s, R s (runStmt e call s l.does).2) (k : Nat) (s : St W F V) :
    R s (runLines e call k ls s).2.2 := by
  induction ls generalizing k s with
  | nil => exact refl s
  | cons l ls ih =>
    have h := hst l List.mem_cons_self s
    rw [runLines]
    split
    · rename_i s' he
      rw [he] at h
      exact trans _ _ _ h (ih (fun l hl => hst l (List.mem_cons_of_mem _ hl)) _ _)
    · rename_i r s' hr he
      rw [he] at h
      exact h

theorem runLines_rel {R : St W F V → St W F V → Prop} (e : Env W F V) (call : List Str → St W F V → Res × St W F V)
    (refl : ∀ s, R s s) (trans : ∀ a b c, R a b → R b c → R a c)
    (hwork : ∀ s f g, R s { s with frames := putFrame s.self f s.frames, globals := g })
    (hworld : ∀ (s : St W F V) w, R s { s with world := w }) (hcall : ∀ ps s, R s (call ps s).2)
    (ls : List (Line W F V)) (k : Nat) (s : St W F V) : R s (runLines e call k ls s).2.2 :=
  runLines_each e call refl trans ls (fun _ _ s => runStmt_rel e call refl trans hwork hworld hcall s _) k s

theorem loop_rel {R : St W F V → St W F V → Prop} (e : Env W F V) (call : List Str → St W F V → Res × St W F V)
    (refl : ∀ s, R s s) (trans : ∀ a b c, R a b → R b c → R a c) (hvisit : ∀ p s, R s (visit e call p s).2)
    (ps : List Str) (s : St W F V) : R s (loop e call ps s).2 := by
  induction ps generalizing s with
  | nil => exact refl s
  | cons p ps ih =>
    rw [loop]
    split
    · exact ih s
    · exact refl s
    · have h := hvisit p s
      split
      · rename_i s' he
        rw [he] at h
        exact trans _ _ _ h (ih s')
      · exact h

theorem exec_rel {R : St W F V → St W F V → Prop} (e : Env W F V) (refl : ∀ s, R s s)
    (trans : ∀ a b c, R a b → R b c → R a c)
    (hvisit : ∀ call, (∀ ps s, R s (call ps s).2) → ∀ p s, R s (visit e call p s).2) (d : Nat) (ps : List Str)
    (s : St W F V) : R s (execNodes e d ps s).2 := by
  induction d generalizing ps s with
  | zero => exact refl s
  | succ d ih => exact loop_rel e _ refl trans (hvisit _ ih) ps s

/-! ### The parts of a visit -/

/-- The state with which the code of a node starts. -/
def entered (e : Env W F V) (p : Str) (code : List (Line W F V)) (s : St W F V) : St W F V :=
  { s with
    frames := s.frames ++ [(p, e.load s.world p)]
    path := p
    lines := code.map Line.text
    self := s.frames.length
    running := true }

/-- What `run` does once the code has ended, but for interrupts. -/
def left (e : Env W F V) (p : Str) (code : List (Line W F V)) (s : St W F V) (s' : St W F V) : St W F V :=
  { s' with running := false, globals := Rt.cleanGlobals (code.map Line.text) (keys s.globals) s'.globals }

theorem runBody_cases (e : Env W F V) (call : List Str → St W F V → Res × St W F V) (custom : Bool) (p : Str)
    (code : List (Line W F V)) (s : St W F V) :
    ∃ r k s', runLines e call 0 code (entered e p code s) = (r, k, s') ∧
      ((∃ rs, r = .error rs ∧ runBody e call custom p code s = (wrap custom k s' r, left e p code s s')) ∨
       (r = .interrupt ∧ runBody e call custom p code s = (.interrupt, s')) ∨
       ((r = .ok ∨ r = .exitNode ∨ r = .exitGraph) ∧ runBody e call custom p code s = (r, { left e p code s s' with
          world := e.store p (e.load s.world p)
            (((s'.frames[s.frames.length]?).map Prod.snd).getD (e.load s.world p)) s'.world }))) := by
  rcases h : runLines e call 0 code (entered e p code s) with ⟨r, k, s'⟩
  refine ⟨r, k, s', rfl, ?_⟩
  unfold entered at h
  cases r with
  | error rs => refine .inl ⟨rs, rfl, ?_⟩; simp only [runBody, h, wrap]; rfl
  | interrupt => refine .inr (.inl ⟨rfl, ?_⟩); simp only [runBody, h, wrap]
  | ok => refine .inr (.inr ⟨.inl rfl, ?_⟩); simp only [runBody, h, wrap]; rfl
  | exitNode => refine .inr (.inr ⟨.inr (.inl rfl), ?_⟩); simp only [runBody, h, wrap]; rfl
  | exitGraph => refine .inr (.inr ⟨.inr (.inr rfl), ?_⟩); simp only [runBody, h, wrap]; rfl

/-- The state with which a visit starts to run the node. -/
def begun (e : Env W F V) (p : Str) (s : St W F V) : St W F V :=
  { s with times := Exec.enter s.times p (e.clock s.world), trace := s.trace ++ [.begun p] }

/-! ### Times -/

/-- The number of open runs of `p`. -/
def opens (ts : Exec.Times) (p : Str) : Nat := ts.countP (fun x => decide (x.1 = p ∧ x.2.2 = none))

theorem opens_enter (ts : Exec.Times) (p q : Str) (t : Int) :
    opens (Exec.enter ts p t) q = opens ts q + if p = q then 1 else 0 := by
  unfold opens Exec.enter
  rw [List.countP_append]
  by_cases h : p = q <;> simp [List.countP_cons, h]

theorem orderly_enter {ts : Exec.Times} (h : Orderly ts) (p : Str) (t : Int) : Orderly (Exec.enter ts p t) := by
  unfold Orderly Exec.enter
  rw [List.pairwise_append]
  refine ⟨h, by simp, ?_⟩
  intro a _ b hb _ _
  rw [List.mem_singleton] at hb
  rw [hb]

theorem closeFirst_mem {p : Str} {t : Int} {ts ts' : Exec.Times} (h : Exec.closeFirst p t ts = some ts')
    {y : Str × Int × Option Int} (hy : y ∈ ts') : y ∈ ts ∨ y.1 = p := by
  induction ts generalizing ts' with
  | nil => cases h
  | cons x ts ih =>
    obtain ⟨q, a, b⟩ := x
    rw [Exec.closeFirst] at h
    split at h
    · rename_i hq
      cases h
      rcases List.mem_cons.1 hy with rfl | hy
      · exact .inr hq.1
      · exact .inl (List.mem_cons_of_mem _ hy)
    · cases hc : Exec.closeFirst p t ts with
      | none => rw [hc] at h; cases h
      | some u =>
        rw [hc] at h
        cases h
        rcases List.mem_cons.1 hy with rfl | hy
        · exact .inl List.mem_cons_self
        · rcases ih hc hy with h1 | h1
          · exact .inl (List.mem_cons_of_mem _ h1)
          · exact .inr h1

theorem closeFirst_new {p : Str} {t : Int} {ts ts' : Exec.Times} (h : Exec.closeFirst p t ts = some ts') :
    ∃ a, (p, a, some t) ∈ ts' := by
  induction ts generalizing ts' with
  | nil => cases h
  | cons x ts ih =>
    obtain ⟨q, a, b⟩ := x
    rw [Exec.closeFirst] at h
    split at h
    · rename_i hq
      cases h
      exact ⟨a, by rw [← hq.1]; exact List.mem_cons_self⟩
    · cases hc : Exec.closeFirst p t ts with
      | none => rw [hc] at h; cases h
      | some u =>
        rw [hc] at h
        cases h
        obtain ⟨a', h'⟩ := ih hc
        exact ⟨a', List.mem_cons_of_mem _ h'⟩

theorem orderly_closeFirst {p : Str} {t : Int} {ts ts' : Exec.Times} (h : Exec.closeFirst p t ts = some ts')
    (ho : Orderly ts) : Orderly ts' := by
  induction ts generalizing ts' with
  | nil => cases h
  | cons x ts ih =>
    obtain ⟨q, a, b⟩ := x
    have h1 := (List.pairwise_cons.1 ho)
    rw [Exec.closeFirst] at h
    split at h
    · cases h
      exact List.pairwise_cons.2 ⟨fun y _ _ hn => (Option.some_ne_none _ hn).elim, h1.2⟩
    · rename_i hq
      cases hc : Exec.closeFirst p t ts with
      | none => rw [hc] at h; cases h
      | some u =>
        rw [hc] at h
        cases h
        refine List.pairwise_cons.2 ⟨?_, ih hc h1.2⟩
        intro y hy he hn
        rcases closeFirst_mem hc hy with h2 | h2
        · exact h1.1 y h2 he hn
        · exact (hq ⟨he.trans h2, hn⟩).elim

theorem closeFirst_opens (p : Str) (t : Int) (ts : Exec.Times) :
    match Exec.closeFirst p t ts with
    | none => opens ts p = 0
    | some ts' => ∀ q, opens ts q = opens ts' q + if p = q then 1 else 0 := by
  induction ts with
  | nil => rfl
  | cons x ts ih =>
    obtain ⟨r, a, b⟩ := x
    rw [Exec.closeFirst]
    by_cases hr : r = p ∧ b = none
    · rw [if_pos hr]
      intro q
      simp [opens, List.countP_cons, hr.1, hr.2]
    · rw [if_neg hr]
      cases hc : Exec.closeFirst p t ts with
      | none =>
        rw [hc] at ih
        simp only [Option.map_none]
        simp only [opens] at ih ⊢
        rw [List.countP_cons, ih]
        simp [hr]
      | some u =>
        rw [hc] at ih
        simp only [Option.map_some]
        intro q
        have := ih q
        simp only [opens] at this ⊢
        rw [List.countP_cons, List.countP_cons, this]
        omega

theorem runTime_open {ts : Exec.Times} {p : Str} (ho : Orderly ts) (h : 0 < opens ts p) :
    Exec.runTime ts p = .error .typeError := by
  obtain ⟨⟨q, a, b⟩, hx, hp⟩ := List.countP_pos_iff.1 h
  simp only [decide_eq_true_eq] at hp
  obtain ⟨rfl, rfl⟩ := hp
  unfold Exec.runTime Exec.runsOf
  have hf : (q, a, none) ∈ ts.filter (fun e => decide (e.1 = q)) := List.mem_filter.2 ⟨hx, by simp⟩
  have hpw : (ts.filter (fun e => decide (e.1 = q))).Pairwise (fun x y => x.1 = y.1 → x.2.2 = none → y.2.2 = none) :=
    List.Pairwise.sublist List.filter_sublist ho
  have hall : ∀ e ∈ ts.filter (fun e => decide (e.1 = q)), e.1 = q := by
    intro e he
    simpa using (List.mem_filter.1 he).2
  generalize ts.filter (fun e => decide (e.1 = q)) = l at *
  rcases List.eq_nil_or_concat l with rfl | ⟨l', z, rfl⟩
  · cases hf
  · rw [List.concat_eq_append] at *
    obtain ⟨zp, za, zb⟩ := z
    have hz : zb = none := by
      rcases List.mem_append.1 hf with h1 | h1
      · exact (List.pairwise_append.1 hpw).2.2 _ h1 _ (List.mem_singleton.2 rfl)
          ((hall _ (by simp)).symm) rfl
      · rw [List.mem_singleton] at h1
        injection h1 with _ h2
        injection h2 with _ h3
        exact h3.symm
    rw [List.map_append, List.map_singleton, List.getLast?_append]
    simp [hz]

theorem runTime_closed {ts : Exec.Times} {p : Str} (h : opens ts p = 0) {a : Int} {b : Option Int} (hm : (p, a, b) ∈ ts) :
    ∃ d, Exec.runTime ts p = .ok d := by
  unfold Exec.runTime Exec.runsOf
  have hne : (ts.filter (fun e => decide (e.1 = p))) ≠ [] :=
    fun h0 => by
      have : (p, a, b) ∈ ts.filter (fun e => decide (e.1 = p)) := List.mem_filter.2 ⟨hm, by simp⟩
      rw [h0] at this
      cases this
  have hall : ∀ e ∈ ts.filter (fun e => decide (e.1 = p)), e.2.2 ≠ none := by
    intro e he hn
    have h1 := List.mem_filter.1 he
    exact List.countP_eq_zero.1 h e h1.1 (by simpa using ⟨by simpa using h1.2, hn⟩)
  generalize ts.filter (fun e => decide (e.1 = p)) = l at *
  rcases List.eq_nil_or_concat l with rfl | ⟨l', z, rfl⟩
  · exact (hne rfl).elim
  · rw [List.concat_eq_append] at *
    obtain ⟨zp, za, zb⟩ := z
    cases zb with
    | none => exact (hall (zp, za, none) (by simp) rfl).elim
    | some zb => exact ⟨zb - za, by rw [List.map_append, List.map_singleton, List.getLast?_append]; simp⟩

theorem opens_idle {ts : Exec.Times} {p : Str} (h : Idle ts p) : opens ts p = 0 := by
  refine List.countP_eq_zero.2 ?_
  rintro ⟨q, a, b⟩ he hd
  simp only [decide_eq_true_eq] at hd
  obtain ⟨rfl, rfl⟩ := hd
  exact h a none he rfl

/-- What every part of an execution does to the times: open runs stay, in order. -/
def TimesKept (s s' : St W F V) : Prop :=
  Orderly s.times → Orderly s'.times ∧ ∀ q, opens s'.times q = opens s.times q

theorem TimesKept.of_eq {s s' : St W F V} (h : s'.times = s.times) : TimesKept s s' := by
  intro ho
  rw [h]
  exact ⟨ho, fun _ => rfl⟩

theorem TimesKept.trans {a b c : St W F V} (h1 : TimesKept a b) (h2 : TimesKept b c) : TimesKept a c := by
  intro ho
  have := h1 ho
  have h3 := h2 this.1
  exact ⟨h3.1, fun q => (h3.2 q).trans (this.2 q)⟩

theorem runNode_times (e : Env W F V) (call : List Str → St W F V → Res × St W F V)
    (hc : ∀ ps s, TimesKept s (call ps s).2) (p : Str) (s : St W F V) : TimesKept s (runNode e call p s).2 := by
  unfold runNode
  split
  · exact .of_eq rfl
  · rename_i code _
    obtain ⟨r, k, s', h, h'⟩ := runBody_cases e call false p code s
    have h1 := runLines_rel (R := TimesKept) e call (fun _ => .of_eq rfl) (fun _ _ _ => .trans)
      (fun _ _ _ => .of_eq rfl) (fun _ _ => .of_eq rfl) hc code 0 (entered e p code s)
    rw [h] at h1
    have h2 : TimesKept s s' := TimesKept.trans (.of_eq rfl) h1
    rcases h' with ⟨_, _, h'⟩ | ⟨_, h'⟩ | ⟨_, h'⟩ <;> rw [h']
    · exact h2.trans (.of_eq rfl)
    · exact h2
    · exact h2.trans (.of_eq rfl)

/-- How a visit goes on after the node was run: always with an exit time, and with a run time iff the node was not
running already. -/
theorem visit_cases (e : Env W F V) (call : List Str → St W F V → Res × St W F V)
    (hc : ∀ ps s, TimesKept s (call ps s).2) (p : Str) (s : St W F V) (ho : Orderly s.times) :
    ∃ ts, Orderly ts ∧ (∀ q, opens ts q = opens s.times q) ∧
      (visit e call p s).2 = { (runNode e call p (begun e p s)).2 with
        trace := (runNode e call p (begun e p s)).2.trace ++ [.ended p (runNode e call p (begun e p s)).1], times := ts } ∧
      (visit e call p s).1 = if 0 < opens s.times p then .error []
        else if (runNode e call p (begun e p s)).1 = .exitNode then .ok else (runNode e call p (begun e p s)).1 := by
  have hk := runNode_times e call hc p (begun e p s) (orderly_enter ho p _)
  rcases hr : runNode e call p (begun e p s) with ⟨r, s1⟩
  rw [hr] at hk
  have hcf := closeFirst_opens p (e.clock s1.world) s1.times
  have hop : opens s1.times p = opens s.times p + 1 := by
    rw [hk.2 p]; unfold begun; simp only; rw [opens_enter, if_pos rfl]
  cases hcl : Exec.closeFirst p (e.clock s1.world) s1.times with
  | none =>
    rw [hcl] at hcf
    simp only at hcf
    omega
  | some ts =>
    rw [hcl] at hcf
    simp only at hcf
    have hts : ∀ q, opens ts q = opens s.times q := by
      intro q
      have h1 := hcf q
      have h2 := hk.2 q
      unfold begun at h2
      simp only at h2
      rw [opens_enter] at h2
      omega
    refine ⟨ts, orderly_closeFirst hcl hk.1, hts, ?_⟩
    have hex : Exec.exit s1.times p (e.clock s1.world) = .ok ts := by unfold Exec.exit; rw [hcl]
    obtain ⟨a, ha⟩ := closeFirst_new hcl
    have hr' : runNode e call p
        { s with times := Exec.enter s.times p (e.clock s.world), trace := s.trace ++ [.begun p] } = (r, s1) := hr
    unfold visit
    simp only [hr', hex]
    by_cases h0 : 0 < opens s.times p
    · have := runTime_open (orderly_closeFirst hcl hk.1) (by rw [hts p]; exact h0)
      rw [this, if_pos h0]
      exact ⟨rfl, rfl⟩
    · obtain ⟨d, hd⟩ := runTime_closed (by rw [hts p]; omega) ha
      rw [hd, if_neg h0]
      cases r <;> exact ⟨rfl, rfl⟩

theorem exec_times (e : Env W F V) (d : Nat) (ps : List Str) (s : St W F V) : TimesKept s (execNodes e d ps s).2 := by
  refine exec_rel e (fun _ => .of_eq rfl) (fun _ _ _ => .trans) ?_ d ps s
  intro call hc p s ho
  obtain ⟨ts, h1, h2, h3, -⟩ := visit_cases e call hc p s ho
  rw [h3]
  exact ⟨h1, h2⟩

/-! ### Frames -/

theorem visit_state (e : Env W F V) (call : List Str → St W F V → Res × St W F V) (p : Str) (s : St W F V) :
    ∃ ts, (visit e call p s).2 = { (runNode e call p (begun e p s)).2 with
      trace := (runNode e call p (begun e p s)).2.trace ++ [.ended p (runNode e call p (begun e p s)).1], times := ts } := by
  have hb : runNode e call p
    { s with times := Exec.enter s.times p (e.clock s.world), trace := s.trace ++ [.begun p] } =
    runNode e call p (begun e p s) := rfl
  unfold visit
  simp only [hb]
  generalize runNode e call p (begun e p s) = r
  split
  · exact ⟨_, rfl⟩
  · split
    · exact ⟨_, rfl⟩
    · split <;> exact ⟨_, rfl⟩

/-- Frames made before stay as they are; `self` stays or is a frame made meanwhile. -/
def FramesKept (s s' : St W F V) : Prop :=
  s.frames <+: s'.frames ∧ (s'.self = s.self ∨ s.frames.length ≤ s'.self)

theorem FramesKept.refl (s : St W F V) : FramesKept s s := ⟨List.prefix_refl _, .inl rfl⟩

theorem FramesKept.trans {a b c : St W F V} (h1 : FramesKept a b) (h2 : FramesKept b c) : FramesKept a c := by
  refine ⟨h1.1.trans h2.1, ?_⟩
  have := h1.1.length_le
  rcases h2.2 with h | h
  · rw [h]; exact h1.2
  · exact .inr (by omega)

/-- The same seen from code which began with `n` frames there. -/
def Above (n : Nat) (s s' : St W F V) : Prop :=
  n ≤ s.self → n ≤ s.frames.length → n ≤ s'.self ∧ n ≤ s'.frames.length ∧ s'.frames.take n = s.frames.take n

theorem take_putFrame {n i : Nat} (h : n ≤ i) (f : F) (fs : List (Str × F)) : (putFrame i f fs).take n = fs.take n := by
  apply List.ext_getElem?
  intro j
  rw [List.getElem?_take, List.getElem?_take]
  split
  · rename_i hj
    have : i ≠ j := by omega
    unfold putFrame
    rw [List.getElem?_modify]
    simp [this]
  · rfl

theorem length_putFrame (i : Nat) (f : F) (fs : List (Str × F)) : (putFrame i f fs).length = fs.length := by
  unfold putFrame; rw [List.length_modify]

theorem runLines_above (e : Env W F V) (call : List Str → St W F V → Res × St W F V)
    (hc : ∀ ps s, FramesKept s (call ps s).2) (n : Nat) (ls : List (Line W F V)) (k : Nat) (s : St W F V) :
    Above n s (runLines e call k ls s).2.2 := by
  refine runLines_rel (R := Above n) e call ?_ ?_ ?_ ?_ ?_ ls k s
  · intro s h1 h2; exact ⟨h1, h2, rfl⟩
  · intro a b c h1 h2 h3 h4
    obtain ⟨x, y, z⟩ := h1 h3 h4
    obtain ⟨x', y', z'⟩ := h2 x y
    exact ⟨x', y', z'.trans z⟩
  · intro s f g h1 h2
    exact ⟨h1, by simpa [length_putFrame] using h2, take_putFrame h1 f _⟩
  · intro s w h1 h2; exact ⟨h1, h2, rfl⟩
  · intro ps s h1 h2
    obtain ⟨⟨t, ht⟩, h⟩ := hc ps s
    refine ⟨?_, ?_, ?_⟩
    · rcases h with h | h <;> omega
    · rw [← ht, List.length_append]; omega
    · rw [← ht, List.take_append_of_le_length h2]

theorem runNode_frames (e : Env W F V) (call : List Str → St W F V → Res × St W F V)
    (hc : ∀ ps s, FramesKept s (call ps s).2) (p : Str) (s : St W F V) : FramesKept s (runNode e call p s).2 := by
  unfold runNode
  split
  · exact ⟨⟨_, rfl⟩, .inl rfl⟩
  · rename_i code _
    obtain ⟨r, k, s', h, h'⟩ := runBody_cases e call false p code s
    have h1 := runLines_above e call hc s.frames.length code 0 (entered e p code s) (Nat.le_refl _)
      (by simp [entered])
    rw [h] at h1
    have h2 : FramesKept s s' := by
      refine ⟨?_, .inr h1.1⟩
      have h3 := h1.2.2
      simp only [entered, List.take_left] at h3
      rw [← h3]
      exact List.take_prefix _ _
    rcases h' with ⟨_, _, h'⟩ | ⟨_, h'⟩ | ⟨_, h'⟩ <;> rw [h'] <;> exact h2

theorem exec_frames (e : Env W F V) (d : Nat) (ps : List Str) (s : St W F V) : FramesKept s (execNodes e d ps s).2 := by
  refine exec_rel e .refl (fun _ _ _ => .trans) ?_ d ps s
  intro call hc p s
  obtain ⟨ts, h⟩ := visit_state e call p s
  rw [h]
  exact runNode_frames e call hc p (begun e p s)

/-! ### Lines without calls -/

theorem putFrame_put (i : Nat) (f f' : F) (fs : List (Str × F)) : putFrame i f' (putFrame i f fs) = putFrame i f' fs := by
  apply List.ext_getElem?
  intro j
  unfold putFrame
  simp only [List.getElem?_modify]
  split <;> cases fs[j]? <;> rfl

theorem putFrame_same {i : Nat} {q : Str} {f : F} {fs : List (Str × F)} (h : fs[i]? = some (q, f)) : putFrame i f fs = fs := by
  apply List.ext_getElem?
  intro j
  unfold putFrame
  rw [List.getElem?_modify]
  split
  · rename_i hij; subst hij; rw [h]; rfl
  · simp

theorem putFrame_get {i : Nat} {q : Str} {f : F} {fs : List (Str × F)} (h : fs[i]? = some (q, f)) (f' : F) :
    (putFrame i f' fs)[i]? = some (q, f') := by
  unfold putFrame
  rw [List.getElem?_modify, h]
  simp

theorem runLines_steps (e : Env W F V) (call : List Str → St W F V → Res × St W F V) {before : List (Line W F V)}
    {x y : F × Dict Str V} (h : Steps before x y) (rest : List (Line W F V)) (k : Nat) (s : St W F V) {q : Str}
    (hf : s.frames[s.self]? = some (q, x.1)) (hg : s.globals = x.2) :
    runLines e call k (before ++ rest) s =
      runLines e call (k + before.length) rest { s with frames := putFrame s.self y.1 s.frames, globals := y.2 } := by
  induction h generalizing k s with
  | nil x =>
    rw [putFrame_same hf, ← hg]
    rfl
  | @cons l ls f f' g g' y w hl hw _ ih =>
    rw [List.cons_append, runLines]
    have : runStmt e call s l.does = (.ok, { s with frames := putFrame s.self f' s.frames, globals := g' }) := by
      rw [hl, runStmt, hf]
      simp only
      rw [hg, hw]
      rfl
    rw [this]
    simp only
    rw [ih (k + 1) _ (putFrame_get hf f') rfl]
    simp only [putFrame_put, List.length_cons]
    congr 1
    omega

theorem entered_frame (e : Env W F V) (p : Str) (code : List (Line W F V)) (s : St W F V) :
    (entered e p code s).frames[(entered e p code s).self]? = some (p, e.load s.world p) := by
  simp [entered]

theorem putFrame_last (fs : List (Str × F)) (p : Str) (f f' : F) :
    putFrame fs.length f' (fs ++ [(p, f)]) = fs ++ [(p, f')] := by
  apply List.ext_getElem?
  intro j
  unfold putFrame
  rw [List.getElem?_modify]
  rcases Nat.lt_trichotomy j fs.length with h | h | h
  · have : fs.length ≠ j := by omega
    rw [List.getElem?_append_left h, List.getElem?_append_left h]; simp [this]
  · subst h; simp
  · rw [List.getElem?_eq_none (by simp; omega), List.getElem?_eq_none (by simp; omega)]; rfl

/-! ### The trace -/

/-- The trace grows by brackets. -/
def Grows (s s' : St W F V) : Prop := ∃ t, s'.trace = s.trace ++ t ∧ Brackets t

theorem brackets_append {a b : List Event} (ha : Brackets a) (hb : Brackets b) : Brackets (a ++ b) := by
  induction ha with
  | nil => exact hb
  | node p r h1 _ _ ih2 =>
    have := Brackets.node p r h1 ih2
    simpa using this

theorem Grows.of_eq {s s' : St W F V} (h : s'.trace = s.trace) : Grows s s' := ⟨[], by simp [h], .nil⟩

theorem Grows.trans {a b c : St W F V} (h1 : Grows a b) (h2 : Grows b c) : Grows a c := by
  obtain ⟨t, h, b1⟩ := h1
  obtain ⟨u, h', b2⟩ := h2
  exact ⟨t ++ u, by rw [h', h, List.append_assoc], brackets_append b1 b2⟩

theorem runNode_grows (e : Env W F V) (call : List Str → St W F V → Res × St W F V) (hc : ∀ ps s, Grows s (call ps s).2)
    (p : Str) (s : St W F V) : Grows s (runNode e call p s).2 := by
  unfold runNode
  split
  · exact .of_eq rfl
  · rename_i code _
    obtain ⟨r, k, s', h, h'⟩ := runBody_cases e call false p code s
    have h1 := runLines_rel (R := Grows) e call (fun _ => .of_eq rfl) (fun _ _ _ => .trans)
      (fun _ _ _ => .of_eq rfl) (fun _ _ => .of_eq rfl) hc code 0 (entered e p code s)
    rw [h] at h1
    have h2 : Grows s s' := Grows.trans (.of_eq rfl) h1
    rcases h' with ⟨_, _, h'⟩ | ⟨_, h'⟩ | ⟨_, h'⟩ <;> rw [h'] <;> exact h2.trans (.of_eq rfl)

theorem visit_grows (e : Env W F V) (call : List Str → St W F V → Res × St W F V) (hc : ∀ ps s, Grows s (call ps s).2)
    (p : Str) (s : St W F V) : ∃ t r, (visit e call p s).2.trace = s.trace ++ (.begun p :: t ++ [.ended p r]) ∧ Brackets t := by
  obtain ⟨ts, h⟩ := visit_state e call p s
  obtain ⟨t, h1, h2⟩ := runNode_grows e call hc p (begun e p s)
  rw [h]
  refine ⟨t, (runNode e call p (begun e p s)).1, ?_, h2⟩
  simp only [h1]
  simp [begun]

theorem exec_grows (e : Env W F V) (d : Nat) (ps : List Str) (s : St W F V) : Grows s (execNodes e d ps s).2 := by
  refine exec_rel e (fun _ => .of_eq rfl) (fun _ _ _ => .trans) ?_ d ps s
  intro call hc p s
  obtain ⟨t, r, h1, h2⟩ := visit_grows e call hc p s
  exact ⟨_, h1, Brackets.node p r h2 .nil⟩

/-! ### The console -/

/-- The console is that of the node begun last. -/
def Fresh (s s' : St W F V) : Prop := lastBegun s.trace = some s.path → lastBegun s'.trace = some s'.path

theorem lastBegun_begun (t : List Event) (p : Str) : lastBegun (t ++ [.begun p]) = some p := by
  simp [lastBegun]

theorem lastBegun_ended (t : List Event) (p : Str) (r : Res) : lastBegun (t ++ [.ended p r]) = lastBegun t := by
  simp [lastBegun]

theorem runNode_fresh (e : Env W F V) (call : List Str → St W F V → Res × St W F V) (hc : ∀ ps s, Fresh s (call ps s).2)
    (p : Str) (code : List (Line W F V)) (s : St W F V) (hs : lastBegun s.trace = some p) :
    lastBegun (runLines e call 0 code (entered e p code s)).2.2.trace =
      some (runLines e call 0 code (entered e p code s)).2.2.path :=
  runLines_rel (R := Fresh) e call (fun _ h => h) (fun _ _ _ h1 h2 h => h2 (h1 h)) (fun _ _ _ h => h) (fun _ _ h => h)
    hc code 0 (entered e p code s) hs

theorem exec_fresh (e : Env W F V) (hcomp : Compiles e) (d : Nat) (ps : List Str) (s : St W F V) :
    Fresh s (execNodes e d ps s).2 := by
  refine exec_rel e (fun _ h => h) (fun _ _ _ h1 h2 h => h2 (h1 h)) ?_ d ps s
  intro call hc p s _
  obtain ⟨ts, h⟩ := visit_state e call p s
  obtain ⟨code, hcode⟩ := hcomp (begun e p s).world p
  have h1 := runNode_fresh e call hc p code (begun e p s) (lastBegun_begun _ _)
  rw [h]
  simp only [lastBegun_ended]
  have hb : runNode e call p (begun e p s) = runBody e call false p code (begun e p s) := by
    unfold runNode; rw [hcode]
  obtain ⟨r, k, s', h2, h'⟩ := runBody_cases e call false p code (begun e p s)
  rw [h2] at h1
  rw [hb]
  rcases h' with ⟨_, _, h'⟩ | ⟨_, h'⟩ | ⟨_, h'⟩ <;> rw [h'] <;> exact h1

/-- As long as no node begins the console stays. -/
def Quiet (s s' : St W F V) : Prop :=
  s.trace.length ≤ s'.trace.length ∧
  (s'.trace.length = s.trace.length → s'.path = s.path ∧ s'.lines = s.lines ∧ s'.trace = s.trace)

theorem Quiet.refl (s : St W F V) : Quiet s s := ⟨Nat.le_refl _, fun _ => ⟨rfl, rfl, rfl⟩⟩

theorem Quiet.trans {a b c : St W F V} (h1 : Quiet a b) (h2 : Quiet b c) : Quiet a c := by
  refine ⟨Nat.le_trans h1.1 h2.1, fun h => ?_⟩
  have l1 := h1.1
  have l2 := h2.1
  obtain ⟨x, y, z⟩ := h1.2 (by omega)
  obtain ⟨x', y', z'⟩ := h2.2 (by omega)
  exact ⟨x'.trans x, y'.trans y, z'.trans z⟩

theorem exec_quiet (e : Env W F V) (d : Nat) (ps : List Str) (s : St W F V) : Quiet s (execNodes e d ps s).2 := by
  have hgrow : ∀ d ps (s : St W F V), Grows s (execNodes e d ps s).2 := exec_grows e
  induction d generalizing ps s with
  | zero => exact .refl s
  | succ d ih =>
    refine loop_rel e _ .refl (fun _ _ _ => .trans) ?_ ps s
    intro p s
    obtain ⟨t, r, h1, -⟩ := visit_grows e (execNodes e d) (hgrow d) p s
    refine ⟨by rw [h1]; simp, fun h => ?_⟩
    rw [h1] at h
    simp at h

/-- How lines end: at one of them, unless all goes well. -/
theorem runLines_place (e : Env W F V) (call : List Str → St W F V → Res × St W F V) (ls : List (Line W F V)) (k : Nat)
    (s : St W F V) : (runLines e call k ls s).1 = .ok ∨
      (k ≤ (runLines e call k ls s).2.1 ∧ (runLines e call k ls s).2.1 < k + ls.length) := by
  induction ls generalizing k s with
  | nil => exact .inl rfl
  | cons l ls ih =>
    rw [runLines]
    split
    · rename_i s' _
      rcases ih (k + 1) s' with h | h
      · exact .inl h
      · exact .inr ⟨by omega, by rw [List.length_cons]; omega⟩
    · exact .inr ⟨Nat.le_refl _, by simp⟩

/-! ### Ending the execution -/

/-- Events which only end runs, and those in a way which ends the execution. -/
def OnlyAborts (t : List Event) : Prop := ∀ x ∈ t, ∃ q r, x = .ended q r ∧ Aborts r

/-- `t` is what an execution ending with `r` may leave when nothing is caught. -/
def Told (r : Res) (t : List Event) : Prop :=
  ∀ a p r1 b, t = a ++ .ended p r1 :: b → Aborts r1 → Aborts r ∧ OnlyAborts b

/-- The same for a step. -/
def Tells (s : St W F V) (x : Res × St W F V) : Prop := ∃ t, x.2.trace = s.trace ++ t ∧ Told x.1 t

theorem Told.nil (r : Res) : Told r [] := by
  intro a p r1 b h
  simp at h

theorem Told.append {r1 r2 : Res} {t u : List Event} (h1 : Told r1 t) (hr : ¬ Aborts r1) (h2 : Told r2 u) :
    Told r2 (t ++ u) := by
  intro a p r b h ha
  rcases List.append_eq_append_iff.1 h with ⟨c, rfl, h'⟩ | ⟨c, rfl, h'⟩
  · exact h2 _ _ _ _ h' ha
  · cases c with
    | nil => exact h2 [] p r b (by simpa using h'.symm) ha
    | cons x c =>
      simp only [List.cons_append, List.cons.injEq] at h'
      obtain ⟨rfl, rfl⟩ := h'
      exact (hr (h1 a p r c rfl ha).1).elim

theorem runStmt_told (e : Env W F V) (call : List Str → St W F V → Res × St W F V) (hc : ∀ ps s, Tells s (call ps s))
    (s : St W F V) (st : Stmt W F V) (hu : ∀ c pa ps start, st = .call c pa ps start → c = false) :
    Tells s (runStmt e call s st) := by
  cases st with
  | work f =>
    simp only [runStmt]
    split <;> exact ⟨[], by simp, .nil _⟩
  | call c pa ps start =>
    cases hu c pa ps start rfl
    have h : Tells s (match request e s.world ps start with
      | none => ((.error [], s) : Res × St W F V)
      | some ps => call ps { s with world := pa s.world }) := by
      split
      · exact ⟨[], by simp, .nil _⟩
      · exact hc _ _
    simp only [runStmt]
    exact h

theorem runLines_told (e : Env W F V) (call : List Str → St W F V → Res × St W F V) (hc : ∀ ps s, Tells s (call ps s))
    (ls : List (Line W F V)) (hu : ∀ l ∈ ls, ∀ c pa ps start, l.does = .call c pa ps start → c = false) (k : Nat)
    (s : St W F V) : Tells s ((runLines e call k ls s).1, (runLines e call k ls s).2.2) := by
  induction ls generalizing k s with
  | nil => exact ⟨[], by simp [runLines], .nil _⟩
  | cons l ls ih =>
    have h := runStmt_told e call hc s l.does (hu l List.mem_cons_self)
    rw [runLines]
    split
    · rename_i s' he
      rw [he] at h
      obtain ⟨t, h1, h2⟩ := h
      obtain ⟨u, h3, h4⟩ := ih (fun l hl => hu l (List.mem_cons_of_mem _ hl)) (k + 1) s'
      simp only at h1 h3
      exact ⟨t ++ u, by rw [h3, h1, List.append_assoc], h2.append (by simp [Aborts]) h4⟩
    · rename_i r s' _ he
      rw [he] at h
      exact h

theorem runNode_told (e : Env W F V) (hun : Uncaught e) (call : List Str → St W F V → Res × St W F V)
    (hc : ∀ ps s, Tells s (call ps s)) (p : Str) (s : St W F V) : Tells s (runNode e call p s) := by
  unfold runNode
  split
  · exact ⟨[], by simp, .nil _⟩
  · rename_i code hcode
    obtain ⟨r, k, s', h, h'⟩ := runBody_cases e call false p code s
    have h1 := runLines_told e call hc code (hun _ _ _ hcode) 0 (entered e p code s)
    rw [h] at h1
    obtain ⟨t, h1, h2⟩ := h1
    rcases h' with ⟨rs, hr, h'⟩ | ⟨hr, h'⟩ | ⟨hr, h'⟩ <;> rw [h'] <;> refine ⟨t, h1, ?_⟩
    · intro a q r1 b ht ha
      exact ⟨.inr (.inr (by rw [hr]; exact ⟨_, rfl⟩)), (h2 a q r1 b ht ha).2⟩
    · rw [hr] at h2; exact h2
    · exact h2

theorem visit_told (e : Env W F V) (hun : Uncaught e) (call : List Str → St W F V → Res × St W F V)
    (hc : ∀ ps s, Tells s (call ps s)) (p : Str) (s : St W F V) : Tells s (visit e call p s) := by
  obtain ⟨ts, hs⟩ := visit_state e call p s
  obtain ⟨t, h1, h2⟩ := runNode_told e hun call hc p (begun e p s)
  have hres : Aborts (runNode e call p (begun e p s)).1 → Aborts (visit e call p s).1 := by
    intro ha
    have hb : runNode e call p
      { s with times := Exec.enter s.times p (e.clock s.world), trace := s.trace ++ [.begun p] } =
      runNode e call p (begun e p s) := rfl
    unfold visit
    simp only [hb]
    generalize runNode e call p (begun e p s) = r at ha
    split
    · exact .inr (.inr ⟨_, rfl⟩)
    · split
      · exact .inr (.inr ⟨_, rfl⟩)
      · split
        · rename_i he
          rw [he] at ha
          simp [Aborts] at ha
        · exact ha
  refine ⟨.begun p :: t ++ [.ended p (runNode e call p (begun e p s)).1], ?_, ?_⟩
  · rw [hs]
    simp only [h1]
    simp [begun]
  · intro a q r1 b ht ha
    generalize (runNode e call p (begun e p s)).1 = r at *
    cases a with
    | nil => simp at ht
    | cons x a =>
      simp only [List.cons_append, List.cons.injEq] at ht
      obtain ⟨-, ht⟩ := ht
      rcases List.append_eq_append_iff.1 ht with ⟨c, hc1, hc2⟩ | ⟨c, hc1, hc2⟩
      · cases c with
        | nil =>
          simp only [List.nil_append, List.cons.injEq] at hc2
          obtain ⟨hc2, rfl⟩ := hc2
          injection hc2 with e1 e2
          subst e2
          exact ⟨hres ha, fun x hx => by cases hx⟩
        | cons y c => simp at hc2
      · cases c with
        | nil =>
          simp only [List.nil_append, List.cons.injEq] at hc2
          obtain ⟨hc2, rfl⟩ := hc2
          injection hc2 with e1 e2
          subst e2
          exact ⟨hres ha, fun x hx => by cases hx⟩
        | cons y c =>
          simp only [List.cons_append, List.cons.injEq] at hc2
          obtain ⟨rfl, rfl⟩ := hc2
          obtain ⟨h3, h4⟩ := h2 a q r1 c hc1 ha
          refine ⟨hres h3, ?_⟩
          intro x hx
          rcases List.mem_append.1 hx with hx | hx
          · exact h4 x hx
          · rw [List.mem_singleton] at hx
            exact ⟨p, r, hx, h3⟩

theorem loop_told (e : Env W F V) (hun : Uncaught e) (call : List Str → St W F V → Res × St W F V)
    (hc : ∀ ps s, Tells s (call ps s)) (ps : List Str) (s : St W F V) : Tells s (loop e call ps s) := by
  induction ps generalizing s with
  | nil => exact ⟨[], by simp [loop], .nil _⟩
  | cons p ps ih =>
    rw [loop]
    split
    · exact ih s
    · exact ⟨[], by simp, .nil _⟩
    · have h := visit_told e hun call hc p s
      split
      · rename_i s' he
        rw [he] at h
        obtain ⟨t, h1, h2⟩ := h
        obtain ⟨u, h3, h4⟩ := ih s'
        simp only at h1
        exact ⟨t ++ u, by rw [h3, h1, List.append_assoc], h2.append (by simp [Aborts]) h4⟩
      · exact h

theorem exec_told (e : Env W F V) (hun : Uncaught e) (d : Nat) (ps : List Str) (s : St W F V) :
    Tells s (execNodes e d ps s) := by
  induction d generalizing ps s with
  | zero => exact ⟨[], by simp [execNodes], .nil _⟩
  | succ d ih => exact loop_told e hun _ ih ps s

end Nxt.Nested
