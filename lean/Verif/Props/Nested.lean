import Verif.Lemmas.Nested
/-!
# Properties C125 and C126: errors in node code, and node code which executes other nodes
-/
namespace Nxt.Props
open Dict Nested Spec

variable {W F V : Type}

/-! ## C125 -/

theorem loop_run {e : Env W F V} {s : St W F V} {p : Str} (h : Runnable e s.world p)
    (call : List Str → St W F V → Res × St W F V) (ps : List Str) :
    loop e call (p :: ps) s = match visit e call p s with | (.ok, s') => loop e call ps s' | r => r := by
  obtain ⟨v, hv, hne⟩ := h
  rw [loop, hv]
  split
  · rename_i hx
    injection hx with hx
    exact (hne hx).elim
  · rename_i hx; cases hx
  · rfl

/-- Code of which one line raises, after lines without calls. -/
theorem body_raise (e : Env W F V) (call : List Str → St W F V → Res × St W F V) (custom : Bool) (p : Str) (s : St W F V)
    {before after : List (Line W F V)} {l : Line W F V} {w : F → Dict Str V → F × Dict Str V × End} {f f' : F}
    {g g' : Dict Str V} (hs : Steps before (e.load s.world p, s.globals) (f, g)) (hl : l.does = .work w)
    (hw : w f g = (f', g', .raised)) :
    (runBody e call custom p (before ++ l :: after) s).1 =
      .error [⟨p, compiled custom before.length - 1,
        locate ((before ++ l :: after).map Line.text) (compiled custom before.length - 1)⟩] := by
  have h := runLines_steps e call hs (l :: after) 0 (entered e p (before ++ l :: after) s)
    (entered_frame e p _ s) rfl
  have hst : runStmt e call { entered e p (before ++ l :: after) s with
      frames := putFrame (entered e p (before ++ l :: after) s).self f (entered e p (before ++ l :: after) s).frames
      globals := g } l.does = (.error [], { entered e p (before ++ l :: after) s with
        frames := putFrame (entered e p (before ++ l :: after) s).self f' (entered e p (before ++ l :: after) s).frames
        globals := g' }) := by
    rw [hl, runStmt]
    simp only
    rw [putFrame_get (entered_frame e p _ s) f]
    simp only
    rw [hw, putFrame_put]
    rfl
  rw [runLines, hst] at h
  simp only [Nat.zero_add] at h
  obtain ⟨r, k, s', h1, h'⟩ := runBody_cases e call custom p (before ++ l :: after) s
  rw [h1] at h
  injection h with ha hb
  injection hb with hb hc
  subst ha hb hc
  rcases h' with ⟨_, _, h'⟩ | ⟨hr, _⟩ | ⟨hr, _⟩
  · rw [h']
    simp only [wrap, entered]
  · cases hr
  · rcases hr with hr | hr | hr <;> cases hr

/-- What a visit of a node which is not running gives. -/
theorem visit_idle (e : Env W F V) (d : Nat) (p : Str) (s : St W F V) (ho : Orderly s.times) (hi : Idle s.times p) :
    (visit e (execNodes e d) p s).1 = if (runNode e (execNodes e d) p (begun e p s)).1 = .exitNode then .ok
      else (runNode e (execNodes e d) p (begun e p s)).1 := by
  obtain ⟨ts, -, -, -, h⟩ := visit_cases e (execNodes e d) (exec_times e d) p s ho
  rw [h, opens_idle hi]
  rfl

/-- C125 for nodes which execute no other nodes before they fail: when the lines before end well and a line
raises, the error names the node, the number of the line counted from 1 and the text of the line; nothing after
it is run. -/
theorem C125_located_partial (e : Env W F V) (d : Nat) (p : Str) (ps : List Str) (s : St W F V)
    {before after : List (Line W F V)} {l : Line W F V} {w : F → Dict Str V → F × Dict Str V × End} {f f' : F}
    {g g' : Dict Str V} (hr : Runnable e s.world p) (ho : Orderly s.times) (hi : Idle s.times p)
    (hcode : e.code s.world p = .ok (before ++ l :: after))
    (hs : Steps before (e.load s.world p, s.globals) (f, g)) (hl : l.does = .work w) (hw : w f g = (f', g', .raised)) :
    (execNodes e (d + 1) (p :: ps) s).1 = .error [⟨p, before.length + 1, l.text⟩] := by
  have hb : (runNode e (execNodes e d) p (begun e p s)).1 = .error [⟨p, before.length + 1, l.text⟩] := by
    unfold runNode
    rw [show e.code (begun e p s).world p = .ok (before ++ l :: after) from hcode]
    simp only
    rw [body_raise e (execNodes e d) false p (begun e p s) hs hl hw]
    simp [compiled, locate]
  have hv := visit_idle e d p s ho hi
  rw [hb, if_neg (by simp)] at hv
  rw [execNodes, loop_run hr]
  rcases hx : visit e (execNodes e d) p s with ⟨r, s'⟩
  rw [hx] at hv
  simp only at hv
  subst hv
  rfl

/-- C125 for code which does not compile: line `k` of the code, counted from 1, is line `k + 1` of the text which is
compiled; it is line `k` which is reported, and nothing is run. -/
theorem C125_syntax (e : Env W F V) (d : Nat) (p : Str) (ps : List Str) (s : St W F V) (k : Nat)
    (hr : Runnable e s.world p) (ho : Orderly s.times) (hi : Idle s.times p) (hcode : e.code s.world p = .error (k + 1)) :
    (execNodes e (d + 1) (p :: ps) s).1 = .error [⟨p, k, []⟩] ∧ (execNodes e (d + 1) (p :: ps) s).2.world = s.world ∧
    (execNodes e (d + 1) (p :: ps) s).2.globals = s.globals := by
  have hb : runNode e (execNodes e d) p (begun e p s) = (.error [⟨p, k, []⟩],
      { begun e p s with frames := s.frames ++ [(p, e.load s.world p)] }) := by
    unfold runNode
    rw [show e.code (begun e p s).world p = .error (k + 1) from hcode]
    rfl
  have hv := visit_idle e d p s ho hi
  obtain ⟨ts, hst⟩ := visit_state e (execNodes e d) p s
  rw [hb] at hv hst
  rw [if_neg (by simp)] at hv
  rw [execNodes, loop_run hr]
  rcases hx : visit e (execNodes e d) p s with ⟨r, s'⟩
  rw [hx] at hv hst
  simp only at hv hst
  subst hv hst
  exact ⟨rfl, rfl, rfl⟩

/-- The run of one node which ends with a located error. -/
theorem error_inv (e : Env W F V) (d : Nat) (p : Str) (s : St W F V) (code : List (Line W F V))
    (hcode : e.code s.world p = .ok code) {r : Report} {rs : List Report}
    (h : (execNodes e (d + 1) [p] s).1 = .error (r :: rs)) :
    ∃ k rs' s', runLines e (execNodes e d) 0 code (entered e p code (begun e p s)) = (.error rs', k, s') ∧
      k < code.length ∧ r = ⟨s'.path, k + 1, locate s'.lines (k + 1)⟩ ∧
      ∃ x, (execNodes e (d + 1) [p] s).2.trace = s'.trace ++ [.ended p x] := by
  rw [execNodes, loop] at h
  split at h
  · cases h
  · cases h
  · rename_i v hv1 hv
    have hloop : loop e (execNodes e d) [p] s = visit e (execNodes e d) p s := by
      rw [loop_run ⟨v, hv, fun h0 => hv1 (by rw [h0])⟩]
      split
      · rename_i s' hx; rw [hx]; rfl
      · rfl
    have h1 : (visit e (execNodes e d) p s).1 = .error (r :: rs) := by
      split at h
      · cases h
      · exact h
    have hn : (runNode e (execNodes e d) p (begun e p s)).1 = .error (r :: rs) := by
      have hb : runNode e (execNodes e d) p
        { s with times := Exec.enter s.times p (e.clock s.world), trace := s.trace ++ [.begun p] } =
        runNode e (execNodes e d) p (begun e p s) := rfl
      unfold visit at h1
      simp only [hb] at h1
      generalize runNode e (execNodes e d) p (begun e p s) = r at h1
      split at h1
      · cases h1
      · split at h1
        · cases h1
        · split at h1
          · cases h1
          · exact h1
    obtain ⟨ts, hst⟩ := visit_state e (execNodes e d) p s
    have hbody : runNode e (execNodes e d) p (begun e p s) = runBody e (execNodes e d) false p code (begun e p s) := by
      unfold runNode; rw [show e.code (begun e p s).world p = .ok code from hcode]
    rw [hbody] at hn hst
    obtain ⟨r', k, s', h2, h'⟩ := runBody_cases e (execNodes e d) false p code (begun e p s)
    rcases h' with ⟨rs', hr, h'⟩ | ⟨hr, h'⟩ | ⟨hr, h'⟩
    · subst hr
      refine ⟨k, rs', s', h2, ?_, ?_, ?_⟩
      · have := runLines_place e (execNodes e d) code 0 (entered e p code (begun e p s))
        rw [h2] at this
        rcases this with h0 | h0
        · cases h0
        · simpa using h0.2
      · rw [h'] at hn
        simp only [wrap, compiled] at hn
        injection hn with hn
        injection hn with hn
        exact hn.symm
      · rw [execNodes, hloop, hst, h']
        exact ⟨_, rfl⟩
    · rw [h'] at hn; cases hn
    · rw [h'] at hn
      rcases hr with hr | hr | hr <;> rw [hr] at hn <;> cases hn

/-- C125 for any code, as long as no other node begins while it runs: the error names the node, a line of its
code and the text of that line. -/
theorem C125_own_partial (e : Env W F V) (d : Nat) (p : Str) (s : St W F V) (code : List (Line W F V))
    (hcode : e.code s.world p = .ok code) {r : Report} {rs : List Report}
    (h : (execNodes e (d + 1) [p] s).1 = .error (r :: rs)) {x : Res}
    (ht : (execNodes e (d + 1) [p] s).2.trace = s.trace ++ [.begun p, .ended p x]) :
    ∃ (k : Nat) (hk : k < code.length), r = ⟨p, k + 1, code[k].text⟩ := by
  obtain ⟨k, rs', s', h1, hk, hr, x', ht'⟩ := error_inv e d p s code hcode h
  refine ⟨k, hk, ?_⟩
  have hq := runLines_rel (R := Quiet) e (execNodes e d) .refl (fun _ _ _ => .trans) (fun _ _ _ => .refl _)
    (fun _ _ => .refl _) (exec_quiet e d) code 0 (entered e p code (begun e p s))
  rw [h1] at hq
  rw [ht'] at ht
  have hlen : s'.trace.length = (entered e p code (begun e p s)).trace.length := by
    have := congrArg List.length ht
    simp only [List.length_append, List.length_cons, List.length_nil] at this
    simp only [entered, begun, List.length_append, List.length_cons, List.length_nil]
    omega
  obtain ⟨hp, hl, -⟩ := hq.2 hlen
  simp only at hp hl
  rw [hr, hp, hl]
  simp [entered, locate, hk]

/-- C125 fails for nodes which execute others: whatever line of the node at `p` failed, the error names the node
begun last, with the number of the line of `p`. -/
theorem C125_path_violation (e : Env W F V) (hcomp : Compiles e) (d : Nat) (p : Str) (s : St W F V) {r : Report}
    {rs : List Report} (h : (execNodes e (d + 1) [p] s).1 = .error (r :: rs)) :
    lastBegun (execNodes e (d + 1) [p] s).2.trace = some r.path ∧
    ∃ code, e.code s.world p = .ok code ∧ 1 ≤ r.line ∧ r.line ≤ code.length := by
  obtain ⟨code, hcode⟩ := hcomp s.world p
  obtain ⟨k, rs', s', h1, hk, hr, x', ht'⟩ := error_inv e d p s code hcode h
  have hf := runNode_fresh e (execNodes e d) (exec_fresh e hcomp d) p code (begun e p s) (lastBegun_begun _ _)
  rw [h1] at hf
  refine ⟨?_, code, hcode, ?_, ?_⟩
  · rw [ht', lastBegun_ended, hr]; exact hf
  · rw [hr]; simp
  · rw [hr]; exact hk

/-- C125 fails for custom code: no line is put before it, but one is taken off the line number.  The text is that
of the line before; the first line is reported as line 0 with the text of the last. -/
theorem C125_custom_violation (e : Env W F V) (d : Nat) (p : Str) (s : St W F V)
    {before after : List (Line W F V)} {l : Line W F V} {w : F → Dict Str V → F × Dict Str V × End} {f f' : F}
    {g g' : Dict Str V} (hs : Steps before (e.load s.world p, s.globals) (f, g)) (hl : l.does = .work w)
    (hw : w f g = (f', g', .raised)) :
    (runCustom e d p (before ++ l :: after) s).1 = .error [⟨p, before.length,
      match before.getLast? with
      | some b => b.text
      | none => ((l :: after).getLast (by simp)).text⟩] := by
  unfold runCustom
  rw [body_raise e (execNodes e d) true p s hs hl hw]
  rcases List.eq_nil_or_concat before with rfl | ⟨b, x, rfl⟩
  · simp only [compiled, locate, List.nil_append, List.length_nil, List.getLast?_nil]
    rw [List.getLast?_map, List.getLast?_eq_some_getLast (by simp)]
    rfl
  · simp [compiled, locate, List.concat_eq_append]

/-! ## C126 -/

/-- C126: what the code called does never touches the frames made before, that of the calling node above all. -/
theorem C126_frames (e : Env W F V) (d : Nat) (ps : List Str) (s : St W F V) :
    ∃ more, (execNodes e d ps s).2.frames = s.frames ++ more := by
  obtain ⟨⟨t, h⟩, -⟩ := exec_frames e d ps s
  exact ⟨t, h.symm⟩

/-- C126: whatever code calls, every run which begins ends, runs inside it before it. -/
theorem C126_brackets (e : Env W F V) (d : Nat) (ps : List Str) (s : St W F V) :
    ∃ t, (execNodes e d ps s).2.trace = s.trace ++ t ∧ Brackets t :=
  exec_grows e d ps s

/-- C126: as long as no code catches exceptions of the calls, nothing begins once the code of a node ended with
`ExitGraph`, an error or an interrupt: all that follows is that the nodes calling it end in such a way, and the
execution ends so. -/
theorem C126_abort_partial (e : Env W F V) (hu : Uncaught e) (d : Nat) (ps : List Str) (s : St W F V) :
    ∃ t, (execNodes e d ps s).2.trace = s.trace ++ t ∧
      ∀ a p r b, t = a ++ .ended p r :: b → Aborts r →
        Aborts (execNodes e d ps s).1 ∧ ∀ x ∈ b, ∃ q r', x = .ended q r' ∧ Aborts r' :=
  exec_told e hu d ps s

/-- C126: every run gets its exit time, and the runs of a node are closed in the order in which they began. -/
theorem C126_times (e : Env W F V) (d : Nat) (ps : List Str) (s : St W F V) (ho : Orderly s.times) :
    Orderly (execNodes e d ps s).2.times ∧ (AllClosed s.times → AllClosed (execNodes e d ps s).2.times) := by
  obtain ⟨h1, h2⟩ := exec_times e d ps s ho
  refine ⟨h1, fun hc x hx hn => ?_⟩
  have h3 := h2 x.1
  rw [opens_idle (fun a b hm => hc _ hm)] at h3
  exact List.countP_eq_zero.1 h3 x hx (by simpa using hn)

/-- C126 fails: a node which is still running can not be executed again.  Its code is run, but then the time of the
run is asked for and that of the run begun last is still missing. -/
theorem C126_reentry_violation (e : Env W F V) (d : Nat) (p : Str) (ps : List Str) (s : St W F V)
    (ho : Orderly s.times) (hr : Runnable e s.world p) {a : Int} (hopen : (p, a, none) ∈ s.times) :
    (execNodes e (d + 1) (p :: ps) s).1 = .error [] := by
  obtain ⟨ts, -, -, -, h⟩ := visit_cases e (execNodes e d) (exec_times e d) p s ho
  have hpos : 0 < opens s.times p := List.countP_pos_iff.2 ⟨_, hopen, by simp⟩
  rw [if_pos hpos] at h
  rw [execNodes, loop_run hr]
  rcases hx : visit e (execNodes e d) p s with ⟨r, s'⟩
  rw [hx] at h
  simp only at h
  subst h
  rfl

/-- C126: code without calls which ends well; what it made of its frame is pushed to its node. -/
theorem C126_alone (e : Env W F V) (call : List Str → St W F V → Res × St W F V) (p : Str) (s : St W F V)
    {code : List (Line W F V)} {f : F} {g : Dict Str V} (hcode : e.code s.world p = .ok code)
    (hs : Steps code (e.load s.world p, s.globals) (f, g)) :
    runNode e call p s = (.ok, { s with
      frames := s.frames ++ [(p, f)]
      globals := Rt.cleanGlobals (code.map Line.text) (keys s.globals) g
      path := p
      lines := code.map Line.text
      self := s.frames.length
      running := false
      world := e.store p (e.load s.world p) f s.world }) := by
  have h := runLines_steps e call hs [] 0 (entered e p code s) (entered_frame e p _ s) rfl
  rw [List.append_nil, runLines] at h
  unfold runNode
  rw [hcode]
  simp only
  obtain ⟨r, k, s', h1, h'⟩ := runBody_cases e call false p code s
  rw [h1] at h
  injection h with ha hb
  injection hb with hb hc
  subst ha hb hc
  rcases h' with ⟨_, hr, _⟩ | ⟨hr, _⟩ | ⟨_, h'⟩
  · cases hr
  · cases hr
  · rw [h']
    simp only [left, entered, putFrame_last]
    simp

theorem stmt_keeps (e : Env W F V) (d : Nat) (n : Nat) (l : Line W F V) (hl : KeepsSelf l) (s : St W F V)
    (hn : n < s.frames.length) : n < (runStmt e (execNodes e d) s l.does).2.frames.length ∧
      (runStmt e (execNodes e d) s l.does).2.frames[n]? = s.frames[n]? := by
  cases hst : l.does with
  | work w =>
    simp only [runStmt]
    split
    · exact ⟨hn, rfl⟩
    · rename_i fr hfr
      rw [hl w hst, putFrame_same (q := fr.1) (by rw [hfr])]
      exact ⟨hn, rfl⟩
  | call c pa ps start =>
    have h : n < (match request e s.world ps start with
      | none => ((.error [], s) : Res × St W F V)
      | some ps => execNodes e d ps { s with world := pa s.world }).2.frames.length ∧
      (match request e s.world ps start with
      | none => ((.error [], s) : Res × St W F V)
      | some ps => execNodes e d ps { s with world := pa s.world }).2.frames[n]? = s.frames[n]? := by
      split
      · exact ⟨hn, rfl⟩
      · rename_i qs _
        obtain ⟨more, hm⟩ := C126_frames e d qs { s with world := pa s.world }
        rw [hm]
        simp only
        exact ⟨by rw [List.length_append]; omega, List.getElem?_append_left hn⟩
    simp only [runStmt]
    split <;> exact h

/-- C126 for code which leaves `self` alone once it has executed other nodes: what its first part made of its frame
is pushed to its node, on top of all the called nodes did. -/
theorem C126_caller_partial (e : Env W F V) (d : Nat) (p : Str) (s : St W F V) {before after : List (Line W F V)} {f : F}
    {g : Dict Str V} (hcode : e.code s.world p = .ok (before ++ after))
    (hs : Steps before (e.load s.world p, s.globals) (f, g)) (hk : ∀ l ∈ after, KeepsSelf l)
    (hend : (runNode e (execNodes e d) p s).1 = .ok ∨ (runNode e (execNodes e d) p s).1 = .exitNode ∨
      (runNode e (execNodes e d) p s).1 = .exitGraph) :
    (runNode e (execNodes e d) p s).2.frames[s.frames.length]? = some (p, f) ∧
    ∃ w, (runNode e (execNodes e d) p s).2.world = e.store p (e.load s.world p) f w := by
  have h := runLines_steps e (execNodes e d) hs after 0 (entered e p (before ++ after) s) (entered_frame e p _ s) rfl
  have hkeep := runLines_each (R := fun a b => s.frames.length < a.frames.length → s.frames.length < b.frames.length ∧
      b.frames[s.frames.length]? = a.frames[s.frames.length]?) e (execNodes e d) (fun _ h => ⟨h, rfl⟩)
    (fun a b c h1 h2 h => ⟨(h2 (h1 h).1).1, ((h2 (h1 h).1).2).trans (h1 h).2⟩) after
    (fun l hl s' h => stmt_keeps e d s.frames.length l (hk l hl) s' h) (0 + before.length)
    { entered e p (before ++ after) s with
      frames := putFrame (entered e p (before ++ after) s).self f (entered e p (before ++ after) s).frames
      globals := g } (by simp [length_putFrame, entered])
  rw [← h] at hkeep
  simp only [entered, putFrame_last] at hkeep
  have hrun : runNode e (execNodes e d) p s = runBody e (execNodes e d) false p (before ++ after) s := by
    unfold runNode; rw [hcode]
  rw [hrun] at hend ⊢
  obtain ⟨r, k, s', h1, h'⟩ := runBody_cases e (execNodes e d) false p (before ++ after) s
  simp only [entered] at h1
  rw [h1] at hkeep
  have hf : s'.frames[s.frames.length]? = some (p, f) := by
    rw [hkeep.2]; simp
  rcases h' with ⟨_, hr, h'⟩ | ⟨hr, h'⟩ | ⟨hr, h'⟩
  · rw [h', hr] at hend
    simp [wrap] at hend
  · rw [h'] at hend
    simp at hend
  · rw [h']
    refine ⟨hf, s'.world, ?_⟩
    simp [hf]

/-- C126 fails: after a call `self` is the frame of the node run last.  Here the code of `p` executes `q` and then does
`h`: `h` works on the frame of `q`, which is pushed nowhere any more but kept in the cache, and nothing is pushed
to `p`. -/
theorem C126_self_violation (e : Env W F V) (d : Nat) (p q : Str) (s : St W F V) {l1 l2 : Line W F V}
    {qcode : List (Line W F V)} {h : F → Dict Str V → F × Dict Str V × End} {f f' : F} {g g' : Dict Str V}
    (hq : q ≠ []) (hcode : e.code s.world p = .ok [l1, l2]) (hl1 : l1.does = .call false id [q] [])
    (hl2 : l2.does = .work h) (hrun : Runnable e s.world q) (ho : Orderly s.times) (hi : Idle s.times q)
    (hqcode : e.code s.world q = .ok qcode) (hs : Steps qcode (e.load s.world q, s.globals) (f, g))
    (hh : h f (Rt.cleanGlobals (qcode.map Line.text) (keys s.globals) g) = (f', g', .ok)) :
    (runNode e (execNodes e (d + 1)) p s).1 = .ok ∧
    (runNode e (execNodes e (d + 1)) p s).2.frames = s.frames ++ [(p, e.load s.world p), (q, f')] ∧
    (runNode e (execNodes e (d + 1)) p s).2.world = e.store p (e.load s.world p) (e.load s.world p)
      (e.store q (e.load s.world q) f s.world) := by
  have hvisit := visit_cases e (execNodes e d) (exec_times e d) q (entered e p [l1, l2] s) ho
  obtain ⟨ts, -, -, hst, hres⟩ := hvisit
  have hqr := C126_alone e (execNodes e d) q (begun e q (entered e p [l1, l2] s)) hqcode hs
  rw [hqr] at hst hres
  rw [show opens (entered e p [l1, l2] s).times q = 0 from opens_idle hi] at hres
  simp only [Nat.lt_irrefl, if_false] at hres
  rw [if_neg (by simp)] at hres
  have hcall : execNodes e (d + 1) [q] (entered e p [l1, l2] s) =
      (.ok, (visit e (execNodes e d) q (entered e p [l1, l2] s)).2) := by
    rw [execNodes, loop_run (e := e) (s := entered e p [l1, l2] s) hrun]
    split
    · rename_i s' hx; rw [hx]; rfl
    · rename_i hne
      rcases hx : visit e (execNodes e d) q (entered e p [l1, l2] s) with ⟨r, s'⟩
      rw [hx] at hres
      simp only at hres
      exact (hne s' (by rw [hx, hres])).elim
  have hreq : request e (entered e p [l1, l2] s).world [q] [] = some [q] := by simp [request]
  have h1 : runStmt e (execNodes e (d + 1)) (entered e p [l1, l2] s) l1.does =
      (.ok, (visit e (execNodes e d) q (entered e p [l1, l2] s)).2) := by
    rw [hl1]
    simp only [runStmt, hreq, id]
    exact hcall
  rw [hst] at h1
  have hrl : ∃ k s2, runLines e (execNodes e (d + 1)) 0 [l1, l2] (entered e p [l1, l2] s) = (.ok, k, s2) ∧
      s2.frames = s.frames ++ [(p, e.load s.world p), (q, f')] ∧
      s2.world = e.store q (e.load s.world q) f s.world := by
    rw [runLines, h1]
    simp only
    rw [runLines, hl2]
    simp only [runStmt, begun, entered]
    rw [List.getElem?_append_right (by simp)]
    simp only [Nat.sub_self, List.getElem?_cons_zero, hh, End.res, runLines]
    refine ⟨_, _, rfl, ?_, rfl⟩
    have := putFrame_last (s.frames ++ [(p, e.load s.world p)]) q f f'
    simpa using this
  obtain ⟨k, s2, h2, hfr, hw⟩ := hrl
  have hrun' : runNode e (execNodes e (d + 1)) p s = runBody e (execNodes e (d + 1)) false p [l1, l2] s := by
    unfold runNode; rw [hcode]
  rw [hrun']
  obtain ⟨r, k', s', h3, h'⟩ := runBody_cases e (execNodes e (d + 1)) false p [l1, l2] s
  rw [h2] at h3
  injection h3 with ha hb
  injection hb with hb hc
  subst ha hb hc
  rcases h' with ⟨_, hr, _⟩ | ⟨hr, _⟩ | ⟨_, h'⟩
  · cases hr
  · cases hr
  · rw [h']
    refine ⟨rfl, hfr, ?_⟩
    simp [hfr, hw]

/-- C126: unless it is interrupted, the layer is not marked as running after an execution. -/
theorem C126_running_partial (e : Env W F V) (d : Nat) (ps : List Str) (s : St W F V) (hc : AllClosed s.times)
    (hs : s.running = false) (hr : (execNodes e d ps s).1 ≠ .interrupt) : (execNodes e d ps s).2.running = false := by
  cases d with
  | zero => exact hs
  | succ d =>
    rw [execNodes] at hr ⊢
    induction ps generalizing s with
    | nil => exact hs
    | cons p ps ih =>
      have ho : Orderly s.times := List.pairwise_of_forall_mem_list (fun x hx y _ _ hn => (hc x hx hn).elim)
      have hi : Idle s.times p := fun a b hm => hc _ hm
      rw [loop] at hr ⊢
      split
      · rename_i hx
        rw [hx] at hr
        exact ih s hc hs hr
      · exact hs
      · rename_i v hv1 hv
        rw [hv] at hr
        split at hr
        · rename_i hx; injection hx with hx; exact (hv1 (by rw [hx])).elim
        · rename_i hx; cases hx
        · obtain ⟨ts, -, hop, hst, hres⟩ := visit_cases e (execNodes e d) (exec_times e d) p s ho
          rw [opens_idle hi] at hres
          simp only [Nat.lt_irrefl, if_false] at hres
          have hnode : (runNode e (execNodes e d) p (begun e p s)).1 ≠ .interrupt →
              (runNode e (execNodes e d) p (begun e p s)).2.running = false := by
            intro h0
            unfold runNode at h0 ⊢
            split
            · exact hs
            · rename_i code hcode
              simp only [hcode] at h0
              obtain ⟨r, k, s', h1, h'⟩ := runBody_cases e (execNodes e d) false p code (begun e p s)
              rcases h' with ⟨_, _, h'⟩ | ⟨_, h'⟩ | ⟨_, h'⟩
              · rw [h']; rfl
              · rw [h'] at h0; exact (h0 rfl).elim
              · rw [h']; rfl
          have hcl : AllClosed (visit e (execNodes e d) p s).2.times := by
            intro x hx hn
            rw [hst] at hx
            have h3 := hop x.1
            rw [opens_idle (fun a b hm => hc _ hm)] at h3
            exact List.countP_eq_zero.1 h3 x hx (by simpa using hn)
          rcases hvis : visit e (execNodes e d) p s with ⟨r, s'⟩
          rw [hvis] at hr hcl hst hres
          simp only at hst hres hcl
          have hrun' : r ≠ .interrupt → s'.running = false := by
            intro h0
            rw [hst]
            refine hnode ?_
            intro h1
            rw [h1] at hres
            exact h0 (by rw [hres]; rfl)
          cases r with
          | ok => exact ih s' hcl (hrun' (by simp)) hr
          | exitNode => exact hrun' (by simp)
          | exitGraph => exact hrun' (by simp)
          | interrupt => exact (hr rfl).elim
          | error rs => exact hrun' (by simp)

/-- C126 fails: while the code of a node goes on after executing another node, the layer is not marked as running. -/
theorem C126_running_violation (e : Env W F V) (d : Nat) (p q : Str) (s : St W F V) (code : List (Line W F V))
    {qcode : List (Line W F V)} {f : F} {g : Dict Str V} (hq : q ≠ []) (hrun : Runnable e s.world q)
    (hqcode : e.code s.world q = .ok qcode) (hs : Steps qcode (e.load s.world q, s.globals) (f, g)) :
    (entered e p code s).running = true ∧
    (runStmt e (execNodes e (d + 1)) (entered e p code s) (.call true id [q] [])).2.running = false := by
  refine ⟨rfl, ?_⟩
  have hreq : request e (entered e p code s).world [q] [] = some [q] := by simp [request]
  have hqr := C126_alone e (execNodes e d) q (begun e q (entered e p code s)) hqcode hs
  obtain ⟨ts, hst⟩ := visit_state e (execNodes e d) q (entered e p code s)
  rw [hqr] at hst
  have hv : (visit e (execNodes e d) q (entered e p code s)).2.running = false := by rw [hst]
  have h : (execNodes e (d + 1) [q] (entered e p code s)).2.running = false := by
    rw [execNodes, loop_run (e := e) (s := entered e p code s) hrun]
    split
    · rename_i s' hx; rw [hx] at hv; exact hv
    · exact hv
  simp only [runStmt, hreq, id]
  split <;> exact h

/-- C126 fails: an interrupt leaves the layer marked as running, with the variables of the node among the globals. -/
theorem C126_interrupt_violation (e : Env W F V) (call : List Str → St W F V → Res × St W F V) (p : Str) (s : St W F V)
    {before after : List (Line W F V)} {l : Line W F V} {w : F → Dict Str V → F × Dict Str V × End} {f f' : F}
    {g g' : Dict Str V} (hcode : e.code s.world p = .ok (before ++ l :: after))
    (hs : Steps before (e.load s.world p, s.globals) (f, g)) (hl : l.does = .work w) (hw : w f g = (f', g', .interrupt)) :
    (runNode e call p s).1 = .interrupt ∧ (runNode e call p s).2.running = true ∧
    (runNode e call p s).2.globals = g' := by
  have h := runLines_steps e call hs (l :: after) 0 (entered e p (before ++ l :: after) s) (entered_frame e p _ s) rfl
  have hst : runStmt e call { entered e p (before ++ l :: after) s with
      frames := putFrame (entered e p (before ++ l :: after) s).self f (entered e p (before ++ l :: after) s).frames
      globals := g } l.does = (.interrupt, { entered e p (before ++ l :: after) s with
        frames := putFrame (entered e p (before ++ l :: after) s).self f' (entered e p (before ++ l :: after) s).frames
        globals := g' }) := by
    rw [hl, runStmt]
    simp only
    rw [putFrame_get (entered_frame e p _ s) f]
    simp only
    rw [hw, putFrame_put]
    rfl
  rw [runLines, hst] at h
  have hrun : runNode e call p s = runBody e call false p (before ++ l :: after) s := by
    unfold runNode; rw [hcode]
  rw [hrun]
  obtain ⟨r, k, s', h1, h'⟩ := runBody_cases e call false p (before ++ l :: after) s
  rw [h1] at h
  injection h with ha hb
  injection hb with hb hc
  subst ha hb hc
  rcases h' with ⟨_, hr, _⟩ | ⟨_, h'⟩ | ⟨hr, _⟩
  · cases hr
  · rw [h']
    exact ⟨rfl, rfl, rfl⟩
  · rcases hr with hr | hr | hr <;> cases hr

/-! ### Cases -/

/-- A stage with one number per node; `code` has the code of each node. -/
def exNest (code : Str → List (Line (Dict Str Nat) Nat Nat)) : Env (Dict Str Nat) Nat Nat where
  look w p := (get? p w).map (fun _ => .none)
  load w p := (get? p w).getD 0
  store p a b w := if a = b then w else Dict.set p b w
  code _ p := .ok (code p)
  order w _ := some (keys w)
  clock w := w.length

/-- `self.x = n` -/
def exPut (n : Nat) : Line (Dict Str Nat) Nat Nat := ⟨"self.x = n".toList, .work (fun _ g => (n, g, .ok))⟩

/-- An assignment to a variable; `declared` tells that the line has a `global` statement too. -/
def exVar (declared : Bool) (k : Str) (n : Nat) : Line (Dict Str Nat) Nat Nat :=
  ⟨if declared then "global ".toList ++ k ++ "; ".toList ++ k ++ " = n".toList else k ++ " = n".toList,
    .work (fun f g => (f, Dict.set k n g, .ok))⟩

/-- `1 / 0` -/
def exBoom : Line (Dict Str Nat) Nat Nat := ⟨"1 / 0".toList, .work (fun f g => (f, g, .raised))⟩

/-- `execute([q])`, within `try` when `caught`. -/
def exRunNode (caught : Bool) (q : Str) : Line (Dict Str Nat) Nat Nat :=
  ⟨"execute(['".toList ++ q ++ "'])".toList, .call caught id [q] []⟩

/-- Two nodes with the value 1 each, and one variable. -/
def exFresh : St (Dict Str Nat) Nat Nat :=
  ⟨[("/a".toList, 1), ("/b".toList, 1)], [("v".toList, 0)], [], [], 0, [], false, [], []⟩

/-- The code of two nodes. -/
def exTwo (a b : List (Line (Dict Str Nat) Nat Nat)) (p : Str) : List (Line (Dict Str Nat) Nat Nat) :=
  if p = "/a".toList then a else b

/-- C126 fails: a variable the calling code uses is changed by the code it calls; and a variable which the called code
declares as global is gone once the calling node is done, though it would stay after running the node alone. -/
theorem C126_globals_violation :
    (execNodes (exNest (exTwo [exVar false "v".toList 3, exRunNode false "/b".toList] [exVar false "v".toList 8])) 3
      ["/a".toList] exFresh).2.globals = [("v".toList, 8)] ∧
    (execNodes (exNest (exTwo [exRunNode false "/b".toList] [exVar true "u".toList 8])) 3 ["/a".toList] exFresh).2.globals =
      [("v".toList, 0)] ∧
    (execNodes (exNest (exTwo [exRunNode false "/b".toList] [exVar true "u".toList 8])) 3 ["/b".toList] exFresh).2.globals =
      [("v".toList, 0), ("u".toList, 8)] := by
  decide +kernel

/-- C125 fails, a case: the third line of `/a` fails, and the error says it was `/b`; that node has no such line.
When it is `/b` which fails, both parts of the message name `/b`. -/
theorem C125_nested_violation :
    (execNodes (exNest (exTwo [exPut 2, exRunNode false "/b".toList, exBoom] [exPut 4])) 3 ["/a".toList] exFresh).1 =
      .error [⟨"/b".toList, 3, "LINE NOT FOUND".toList⟩] ∧
    (execNodes (exNest (exTwo [exPut 2, exRunNode false "/b".toList] [exPut 4, exPut 5, exBoom])) 3 ["/a".toList]
      exFresh).1 =
      .error [⟨"/b".toList, 2, "self.x = n".toList⟩, ⟨"/b".toList, 3, "1 / 0".toList⟩] := by
  decide +kernel

example :  -- C125_located_partial
    (execNodes (exNest (exTwo [exPut 2, exVar false "u".toList 1, exBoom, exPut 3] [])) 1 ["/a".toList] exFresh).1 =
      .error [⟨"/a".toList, 3, "1 / 0".toList⟩] :=
  C125_located_partial (before := [exPut 2, exVar false "u".toList 1]) (after := [exPut 3]) (l := exBoom)
    (f := 2) (g := [("v".toList, 0), ("u".toList, 1)]) _ 0 _ [] exFresh ⟨.none, by rfl, by simp⟩ .nil
    (by intro a b h; cases h) rfl (.cons rfl rfl (.cons rfl rfl (.nil _))) rfl rfl

example :  -- C125_own_partial, with a call which finds no node
    (execNodes (exNest (exTwo [exPut 2, exRunNode false "/c".toList] [])) 2 ["/a".toList] exFresh).1 =
      .error [⟨"/a".toList, 2, "execute(['/c'])".toList⟩] ∧
    (execNodes (exNest (exTwo [exPut 2, exRunNode false "/c".toList] [])) 2 ["/a".toList] exFresh).2.trace =
      [.begun "/a".toList, .ended "/a".toList (.error [⟨"/a".toList, 2, "execute(['/c'])".toList⟩])] := by
  decide +kernel

example :  -- C125_custom_violation: the first line and the second line
    (runCustom (exNest (fun _ => [])) 1 "/a".toList [exBoom, exPut 3] exFresh).1 =
      .error [⟨"/a".toList, 0, "self.x = n".toList⟩] ∧
    (runCustom (exNest (fun _ => [])) 1 "/a".toList [exPut 3, exBoom] exFresh).1 =
      .error [⟨"/a".toList, 1, "self.x = n".toList⟩] := by
  decide +kernel

example : Compiles (exNest (fun _ => [])) ∧ Uncaught (exNest (exTwo [exRunNode false "/b".toList] [])) := by
  refine ⟨fun _ _ => ⟨_, rfl⟩, ?_⟩
  intro w p code h l hl c pa ps st hd
  injection h with h
  subst h
  unfold exTwo at hl
  split at hl
  · rw [List.mem_singleton] at hl
    subst hl
    injection hd with h1
    exact h1.symm
  · cases hl

example :  -- the order of runs, and their ends
    (execNodes (exNest (exTwo [exPut 2, exRunNode false "/b".toList] [exPut 4])) 3 ["/a".toList, "/b".toList] exFresh).2.trace =
      [.begun "/a".toList, .begun "/b".toList, .ended "/b".toList .ok, .ended "/a".toList .ok,
        .begun "/b".toList, .ended "/b".toList .ok] ∧
    (execNodes (exNest (exTwo [exPut 2, exRunNode false "/b".toList] [exPut 4])) 3 ["/a".toList, "/b".toList] exFresh).2.world =
      [("/a".toList, 2), ("/b".toList, 4)] := by
  decide +kernel

example :  -- C126_reentry_violation: `/a` executes itself once; the error of the inner run is caught or not
    (execNodes (exNest (exTwo [exRunNode false "/a".toList] [])) 9 ["/a".toList] exFresh).1 ≠ .ok ∧
    (execNodes (exNest (exTwo [exRunNode true "/b".toList] [exRunNode true "/a".toList])) 3 ["/a".toList] exFresh).1 = .ok ∧
    (execNodes (exNest (exTwo [exRunNode true "/b".toList] [exRunNode false "/a".toList])) 3 ["/a".toList] exFresh).2.trace.map
      (fun | .begun p => (p, true) | .ended p r => (p, decide (r = .ok))) =
      [("/a".toList, true), ("/b".toList, true), ("/a".toList, true), ("/a".toList, true), ("/b".toList, false),
        ("/a".toList, true)] := by
  decide +kernel

example :  -- C126_self_violation: what `/a` writes after its call goes to the frame of `/b`
    let r := execNodes (exNest (exTwo [exRunNode false "/b".toList, exPut 5] [exPut 4])) 3 ["/a".toList] exFresh
    r.1 = .ok ∧ r.2.world = [("/a".toList, 1), ("/b".toList, 4)] ∧
      r.2.frames = [("/a".toList, 1), ("/b".toList, 5)] := by
  decide +kernel

example :  -- C126_caller_partial: written before the call it is kept
    let r := execNodes (exNest (exTwo [exPut 5, exRunNode false "/b".toList, exVar false "u".toList 1] [exPut 4])) 3
      ["/a".toList] exFresh
    r.1 = .ok ∧ r.2.world = [("/a".toList, 5), ("/b".toList, 4)] ∧
      r.2.frames = [("/a".toList, 5), ("/b".toList, 4)] := by
  decide +kernel

example :  -- C125_syntax
    (execNodes { exNest (fun _ => []) with code := fun _ _ => .error 4 } 1 ["/a".toList] exFresh).1 =
      .error [⟨"/a".toList, 3, []⟩] :=
  (C125_syntax _ 0 _ [] exFresh 3 ⟨.none, by rfl, by simp⟩ .nil (by intro a b h; cases h) rfl).1

example :  -- a call deeper than the limit, at the limit
    (execNodes (exNest (exTwo [exRunNode false "/b".toList] [])) 1 ["/a".toList] exFresh).1 =
      .error [⟨"/a".toList, 1, "execute(['/b'])".toList⟩] ∧
    (execNodes (exNest (exTwo [exRunNode false "/b".toList] [])) 2 ["/a".toList] exFresh).1 = .ok := by
  decide +kernel

example : KeepsSelf (exVar false "u".toList 1) ∧ KeepsSelf (exRunNode true "/b".toList) := by
  constructor
  · intro w h f g
    injection h with h
    subst h
    rfl
  · intro w h
    cases h

example :  -- `execute` with a start, with nothing and with both; `ExitGraph` of a called node
    (runStmt (exNest (exTwo [] [exPut 4])) (execNodes (exNest (exTwo [] [exPut 4])) 2) { exFresh with frames := [([], 0)] }
      (.call false id [] "/b".toList)).2.trace =
        [.begun "/a".toList, .ended "/a".toList .ok, .begun "/b".toList, .ended "/b".toList .ok] ∧
    (runStmt (exNest (exTwo [] [])) (execNodes (exNest (exTwo [] [])) 2) exFresh (.call false id [] [])).1 = .error [] ∧
    (runStmt (exNest (exTwo [] [])) (execNodes (exNest (exTwo [] [])) 2) exFresh
      (.call false id ["/b".toList] "/a".toList)).1 = .error [] ∧
    (runStmt (exNest (exTwo [] [])) (execNodes (exNest (exTwo [] [])) 2) exFresh
      (.call false id [] "/c".toList)).1 = .error [] ∧
    (execNodes (exNest (exTwo [exRunNode false "/b".toList, exPut 5] [⟨[], .work (fun f g => (f, g, .exitGraph))⟩])) 3
      ["/a".toList, "/b".toList] exFresh).2.trace =
        [.begun "/a".toList, .begun "/b".toList, .ended "/b".toList .exitGraph, .ended "/a".toList .exitGraph] ∧
    (execNodes (exNest (exTwo [exRunNode false "/b".toList, exPut 5] [⟨[], .work (fun f g => (f, g, .exitNode))⟩])) 3
      ["/a".toList, "/b".toList] exFresh).2.trace =
        [.begun "/a".toList, .begun "/b".toList, .ended "/b".toList .exitNode, .ended "/a".toList .ok,
          .begun "/b".toList, .ended "/b".toList .exitNode] := by
  decide +kernel

end Nxt.Props
