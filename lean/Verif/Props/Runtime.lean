import Verif.Lemmas.Runtime
import Verif.Props.Path
/-!
# Properties C40 to C43: running a node, globals, parameters
-/
namespace Nxt.Props
open Dict Rt Spec NodeData

/-! ## C41 -/

open Classical in
/-- C41, as the code does it: a name stays iff it was there before, or some line which does not start as a
comment or string has the text `global` followed by the name somewhere. -/
theorem C41_exact_partial {V : Type} (lines good : List Str) (g : Dict Str V) (hg : Ok g) (k : Str) :
    get? k (cleanGlobals lines good g) =
      if k ∈ good ∨ ∃ l ∈ lines, Counts l ∧ Occurs ("global ".toList ++ k) l then get? k g else none := by
  unfold cleanGlobals
  rw [get?_eraseAll _ _ hg]
  by_cases hk : k ∈ keys g
  · have e : k ∈ (keys g).filter (fun k => decide (k ∉ safeKeys lines good (keys g))) ↔
        ¬ (k ∈ good ∨ ∃ l ∈ lines, Counts l ∧ Occurs ("global ".toList ++ k) l) := by
      rw [List.mem_filter, decide_eq_true_eq, mem_safeKeys lines good (keys g) k hk]
      exact ⟨fun h => h.2, fun h => ⟨hk, h⟩⟩
    by_cases h : k ∈ good ∨ ∃ l ∈ lines, Counts l ∧ Occurs ("global ".toList ++ k) l
    · rw [if_neg (fun hh => e.1 hh h), if_pos h]
    · rw [if_pos (e.2 h), if_neg h]
  · rw [get?_eq_none.2 hk, ite_self, ite_self]

/-- C41: a name declared first in a `global` statement survives; a name which no line mentions after the
word does not. -/
theorem C41_declared_partial {V : Type} (lines good : List Str) (g : Dict Str V) (hg : Ok g) (k : Str) :
    ((∃ l ∈ lines, ∃ indent rest, (∀ c ∈ indent, c = ' ' ∨ c = '\t') ∧ l = indent ++ "global ".toList ++ k ++ rest) →
      get? k (cleanGlobals lines good g) = get? k g) ∧
    (k ∉ good → (∀ l ∈ lines, ¬ Occurs ("global ".toList ++ k) l) → get? k (cleanGlobals lines good g) = none) := by
  rw [C41_exact_partial lines good g hg k]
  constructor
  · rintro ⟨l, hl, indent, rest, hi, rfl⟩
    rw [if_pos]
    refine .inr ⟨_, hl, ?_, indent, rest, by simp⟩
    cases indent with
    | nil => simp [Counts]
    | cons c indent => rcases hi c List.mem_cons_self with rfl | rfl <;> simp [Counts]
  · intro h1 h2
    rw [if_neg]
    rintro (h | ⟨l, hl, -, ho⟩)
    · exact h1 h
    · exact h2 l hl ho

/-- C41 fails: of `global a, b` only `a` survives. -/
theorem C41_second_name_violation :
    let lines := ["global a, b".toList]
    Declares "global a, b".toList "b".toList ∧
    cleanGlobals lines [] [("a".toList, 1), ("b".toList, 2)] = [("a".toList, 1)] := by
  refine ⟨⟨[], ["a".toList, "b".toList], by simp, by simp, by decide +kernel⟩, by decide +kernel⟩

/-- C41 fails: a name survives though it is declared only in part, or in an indented comment. -/
theorem C41_undeclared_violation :
    cleanGlobals ["global abc".toList] [] [("ab".toList, 1)] = [("ab".toList, 1)] ∧
    cleanGlobals ["    # global x".toList] [] [("x".toList, 1)] = [("x".toList, 1)] ∧
    cleanGlobals ["# global x".toList] [] [("x".toList, 1)] = [] ∧
    ¬ Declares "global abc".toList "ab".toList := by
  refine ⟨by decide +kernel, by decide +kernel, by decide +kernel, ?_⟩
  rintro ⟨indent, names, hi, hk, h⟩
  cases indent with
  | cons c indent =>
    rcases hi c List.mem_cons_self with rfl | rfl <;> simp at h
  | nil =>
    have hj : "abc".toList = Py.join ", ".toList names := by
      have : "global abc".toList = "global ".toList ++ "abc".toList := by decide +kernel
      rw [this, List.nil_append] at h
      exact List.append_cancel_left h
    match names, hk, hj with
    | [w], hk, hj =>
      rw [List.mem_singleton] at hk
      subst hk
      exact absurd hj (by decide +kernel)
    | w :: w2 :: ws, _, hj =>
      have : ',' ∈ "abc".toList := by rw [hj]; simp [Py.join]
      exact absurd this (by decide +kernel)

/-- Two names, one declared. -/
example : cleanGlobals ["x = 1".toList, "global y".toList] ["old".toList]
    [("old".toList, 0), ("x".toList, 1), ("y".toList, 2)] = [("old".toList, 0), ("y".toList, 2)] := by decide +kernel

/-! ## C40 -/

theorem dir_iff (n : RtNode) (a : Str) : a ∈ n.dir ↔ a ∈ keys n.own ∨ a ∈ keys n.inherited := by
  unfold RtNode.dir
  rw [List.mem_append, List.mem_filter]
  constructor
  · rintro (h | h)
    · exact .inl h
    · exact .inr h.1
  · intro h
    by_cases ho : a ∈ keys n.own
    · exact .inl ho
    · exact .inr ⟨h.resolve_left ho, by simpa using ho⟩

theorem user_iff (builtins : List Str) (n : RtNode) (code : Val) (a : Str) :
    a ∈ (RtNode.dir { n with own := set A_CACHED code n.own }).filter (fun a => !skipped builtins a) ↔
      UserAttr builtins n a := by
  rw [List.mem_filter, dir_iff, Bool.not_eq_true', skipped_iff]
  simp only [mem_keys_set]
  unfold UserAttr
  constructor
  · rintro ⟨h, h1, h2, h3⟩
    refine ⟨?_, h1, h2, h3⟩
    rcases h with (rfl | h) | h
    · exact absurd (by decide +kernel) h2
    · exact .inl h
    · exact .inr h
  · rintro ⟨h, h'⟩
    refine ⟨?_, h'⟩
    rcases h with h | h
    · exact .inl (.inr h)
    · exact .inr h

open Classical in
/-- C40: what `run` does to the node.  The code sees exactly the values of the user's attributes.  The bases
are not touched, and of the globals the code leaves those are kept which `cleanGlobals` keeps, or all.  After an error nothing is pushed back.  Otherwise, if no attribute is missing from the frame
afterwards, exactly the values which differ from those before are pushed back and the outcome is that of
the code; if one is missing the outcome is an attribute error. -/
theorem C40_run_partial (builtins : List Str) (real : Str → Val) (eq : Val → Val → Bool) (layer : Option Str)
    (path code : Str) (lines : List Str) (asGlobal : Bool) (selfObj : Val) (body : Frame → Frame × Exec.Outcome)
    (n : RtNode) (g : Dict Str Val) :
    ∃ f : Frame, (∀ a, get? a f.self = if UserAttr builtins n a then some (real a)
        else if a = "_cached_code".toList then some (.str code)
        else if a = "_node_path".toList then some (.str path) else none) ∧
      f.globals = set "self".toList selfObj g ∧
      let r := run builtins real eq layer path code lines asGlobal selfObj body n g
      (r.2.1.inherited = n.inherited ∧
        r.2.2 = if asGlobal then (body f).1.globals else cleanGlobals lines (keys g) (body f).1.globals) ∧
      ((body f).2 = .error → r.1 = .graphError ∧
        ∀ k, get? k r.2.1.own = bookkeeping builtins n layer path code k) ∧
      ((body f).2 ≠ .error → (∀ a, UserAttr builtins n a → a ∈ keys (body f).1.self) →
        r.1 = (match (body f).2 with | .exitNode => .exitNode | .exitGraph => .exitGraph | _ => .returned) ∧
        ∀ k, (∀ post, UserAttr builtins n k → get? k (body f).1.self = some post → eq (real k) post = false →
            get? k r.2.1.own = some post) ∧
          ((¬ UserAttr builtins n k ∨ ∃ post, get? k (body f).1.self = some post ∧ eq (real k) post = true) →
            get? k r.2.1.own = bookkeeping builtins n layer path code k)) ∧
      ((body f).2 ≠ .error → (∃ a, UserAttr builtins n a ∧ a ∉ keys (body f).1.self) → r.1 = .attrError) := by
  let n1 : RtNode := { n with own := set A_CACHED (.str code) n.own }
  let attrs := n1.dir.filter (fun a => !skipped builtins a)
  let frame := set A_CACHED (.str code) (set A_NODE_PATH (.str path) ([] : Dict Str Val))
  let st := attrs.foldl (prepare real (.src layer path)) (n1, [], frame)
  obtain ⟨p1, p2, p3, p4, p5⟩ := prepare_fold real (.src layer path) attrs (n1, [], frame) ok_nil
  have hu : ∀ a, a ∈ attrs ↔ UserAttr builtins n a := fun a => user_iff builtins n _ a
  have hM : M_SOURCE = "_source__nxt".toList := rfl
  have hbook : ∀ k, get? k st.1.own = bookkeeping builtins n layer path code k := by
    intro k
    rw [p2 k]
    unfold bookkeeping
    have e1 : k ∈ attrs.map (· ++ M_SOURCE) ↔ ∃ a, UserAttr builtins n a ∧ k = a ++ "_source__nxt".toList := by
      rw [List.mem_map, hM]
      constructor
      · rintro ⟨a, h1, rfl⟩; exact ⟨a, (hu a).1 h1, rfl⟩
      · rintro ⟨a, h1, rfl⟩; exact ⟨a, (hu a).2 h1, rfl⟩
    have e2 : get? k n1.own = if k = "_cached_code".toList then some (.str code) else get? k n.own := by
      show get? k (set A_CACHED (.str code) n.own) = _
      rw [get?_set]; rfl
    simp only [e1, e2]
  refine ⟨⟨st.2.2, set "self".toList selfObj g⟩, ?_, rfl, ?_⟩
  · intro a
    show get? a st.2.2 = _
    rw [p4 a]
    have e : get? a frame = if a = "_cached_code".toList then some (.str code)
        else if a = "_node_path".toList then some (.str path) else none := by
      show get? a (set A_CACHED (Val.str code) (set A_NODE_PATH (Val.str path) [])) = _
      rw [get?_set, get?_set]; rfl
    simp only [hu, e]
  · intro r
    let b := body ⟨st.2.2, set "self".toList selfObj g⟩
    let P := pushBack eq b.1.self st.2.1 st.1
    have hcache : ∀ k, get? k st.2.1 = if k ∈ attrs then some (real k) else none := by
      intro k; rw [p3 k]; rfl
    have hkeys : ∀ k, k ∈ keys st.2.1 ↔ UserAttr builtins n k := by
      intro k
      rw [← hu, ← get?_isSome, hcache]
      by_cases h : k ∈ attrs <;> simp [h]
    have hr : r = if b.2 = .error then (RunEnd.graphError, st.1,
          if asGlobal then b.1.globals else cleanGlobals lines (keys g) b.1.globals)
        else (if P.2 then .attrError else
            (match b.2 with | .exitNode => .exitNode | .exitGraph => .exitGraph | _ => .returned), P.1,
          if asGlobal then b.1.globals else cleanGlobals lines (keys g) b.1.globals) := by
      show run builtins real eq layer path code lines asGlobal selfObj body n g = _
      unfold run
      show (match b.2 with
        | .error => _
        | o => _) = _
      cases ho : b.2
      case error => rfl
      all_goals
        simp only [reduceCtorEq, if_false]
        show (if P.2 then _ else _) = _
        cases P.2 <;> rfl
    rw [hr]
    refine ⟨?_, ?_, ?_, ?_⟩
    · constructor
      · split
        · exact p1
        · show P.1.inherited = _
          rw [pushBack_inherited]; exact p1
      · split <;> rfl
    · intro he
      have he : b.2 = .error := he
      rw [if_pos he]
      exact ⟨rfl, hbook⟩
    · intro he hall
      have he : b.2 ≠ .error := he
      rw [if_neg he]
      have hf : P.2 = false := by
        rw [← Bool.not_eq_true, pushBack_flag]
        rintro ⟨a, h1, h2⟩
        exact h2 (hall a ((hkeys a).1 h1))
      rw [hf]
      refine ⟨rfl, fun k => ⟨fun post h1 h2 h3 => ?_, fun h => ?_⟩⟩
      · exact pushBack_all eq _ _ p5 _ hf k (real k) post (by rw [hcache, if_pos ((hu k).2 h1)]) h2 h3
      · rw [← hbook k]
        rcases pushBack_only eq b.1.self st.2.1 p5 st.1 k with h' | ⟨pre, post, a1, a2, a3, a4⟩
        · exact h'
        · exfalso
          rw [hcache] at a1
          split at a1
          · rename_i hk
            cases a1
            rcases h with h | ⟨post', b1, b2⟩
            · exact h ((hu k).1 hk)
            · rw [show get? k b.1.self = some post from a2] at b1
              cases b1
              rw [a3] at b2; cases b2
          · cases a1
    · intro he ⟨a, h1, h2⟩
      have he : b.2 ≠ .error := he
      rw [if_neg he]
      have hf : P.2 = true := (pushBack_flag _ _ _ _).2 ⟨a, (hkeys a).2 h1, h2⟩
      rw [hf]; rfl

open Classical in
/-- C40, C41: the globals after `run`, whatever its outcome. -/
theorem C41_run_partial (builtins : List Str) (real : Str → Val) (eq : Val → Val → Bool) (layer : Option Str)
    (path code : Str) (lines : List Str) (selfObj : Val) (body : Frame → Frame × Exec.Outcome)
    (hb : ∀ f, Ok (body f).1.globals) (n : RtNode) (g : Dict Str Val) :
    ∃ f : Frame, f.globals = set "self".toList selfObj g ∧
      (∀ k, get? k (run builtins real eq layer path code lines false selfObj body n g).2.2 =
        if k ∈ keys g ∨ ∃ l ∈ lines, Counts l ∧ Occurs ("global ".toList ++ k) l then get? k (body f).1.globals
        else none) ∧
      (run builtins real eq layer path code lines true selfObj body n g).2.2 = (body f).1.globals := by
  let n1 : RtNode := { n with own := set A_CACHED (.str code) n.own }
  let attrs := n1.dir.filter (fun a => !skipped builtins a)
  let frame := set A_CACHED (.str code) (set A_NODE_PATH (.str path) ([] : Dict Str Val))
  let st := attrs.foldl (prepare real (.src layer path)) (n1, [], frame)
  let b := body ⟨st.2.2, set "self".toList selfObj g⟩
  have key : ∀ asGlobal, (run builtins real eq layer path code lines asGlobal selfObj body n g).2.2 =
      if asGlobal then b.1.globals else cleanGlobals lines (keys g) b.1.globals := by
    intro asGlobal
    let P := pushBack eq b.1.self st.2.1 st.1
    unfold run
    show Prod.snd (Prod.snd (match b.2 with
      | .error => _
      | o => _)) = _
    cases ho : b.2
    case error => rfl
    all_goals
      show Prod.snd (Prod.snd (if P.2 then _ else _)) = _
      cases P.2 <;> rfl
  refine ⟨⟨st.2.2, set "self".toList selfObj g⟩, rfl, fun k => ?_, ?_⟩
  · rw [key]
    exact C41_exact_partial lines (keys g) b.1.globals (hb _) k
  · rw [key]; rfl

/-- A node with an own attribute `a` and an inherited one `b`. -/
def rtSample : RtNode := ⟨[("a".toList, .num 1)], [("b".toList, .num 2), ("_code".toList, .list [])]⟩

/-- Equality of numbers, enough for the samples. -/
def numEq : Val → Val → Bool
  | .num a, .num b => a == b
  | _, _ => false

def realSample (a : Str) : Val := if a = "a".toList then .num 1 else .num 2

/-- The code sets `b` and leaves the node: only `b` becomes an own attribute of the node. -/
example :
    let body : Frame → Frame × Exec.Outcome := fun f => (⟨set "b".toList (.num 5) f.self, f.globals⟩, .exitNode)
    let r := run [] realSample numEq none "/n".toList "x".toList [] false .none body rtSample []
    r.1 = .exitNode ∧ get? "b".toList r.2.1.own = some (.num 5) ∧ get? "a".toList r.2.1.own = some (.num 1) ∧
    get? "b_source__nxt".toList r.2.1.own = some (.src none "/n".toList) ∧ keys r.2.2 = [] := by
  refine ⟨by decide +kernel, rfl, rfl, rfl, by decide +kernel⟩

/-- C40 fails when the code deletes an attribute: later changes are not pushed back, and leaving the node
becomes an attribute error. -/
theorem C40_deleted_violation :
    let body : Frame → Frame × Exec.Outcome := fun f =>
      (⟨set "b".toList (.num 5) (erase "a".toList f.self), f.globals⟩, .exitNode)
    let r := run [] realSample numEq none "/n".toList "x".toList [] false .none body rtSample []
    r.1 = .attrError ∧ get? "b".toList r.2.1.own = none := by
  refine ⟨by decide +kernel, rfl⟩

/-! ## C42 -/

theorem attr_parts {k p a : Str} (h1 : Path.nodePathFromAttrPath k = p) (h2 : Path.attrNameFromAttrPath k = some a) :
    k = p ++ ['.'] ++ a ∧ a ≠ [] ∧ '.' ∉ a := by
  have h : Path.pathAttrPartition k = (p, some a) := by
    rw [← h1]
    show _ = (_, some a)
    rw [← h2]; rfl
  obtain ⟨e1, e2, e3⟩ := C14_split_join k p a h
  exact ⟨e1.symm, e2, e3⟩

/-- C42, when every string key which names a node also names an attribute: the call succeeds; for every node
and attribute the value is the text given for `node.attr`, else the old value; no node appears or goes. -/
theorem C42_params_partial {V : Type} (text : V → Str) (ps : Dict Key V) (hps : Ok ps)
    (ns : Dict Str (Dict Str Val))
    (hattr : ∀ k v, (Key.str k, v) ∈ ps → Path.nodePathFromAttrPath k ∈ keys ns → Path.attrNameFromAttrPath k ≠ none) :
    (setParams text ps ns).2 = false ∧ keys (setParams text ps ns).1 = keys ns ∧
    ∀ p n, get? p ns = some n → ∃ n', get? p (setParams text ps ns).1 = some n' ∧
      ∀ a, get? a n' = (if a = [] ∨ '.' ∈ a then get? a n
        else match get? (Key.str (p ++ ['.'] ++ a)) ps with
          | some v => some (.str (text v))
          | none => get? a n) := by
  induction ps generalizing ns with
  | nil =>
    refine ⟨rfl, rfl, fun p n h => ⟨n, h, fun a => ?_⟩⟩
    simp [get?]
  | cons e ps ih =>
    obtain ⟨k, v⟩ := e
    have hk : keys ((k, v) :: ps) = k :: keys ps := rfl
    have hps' : Ok ps := by unfold Ok at hps ⊢; rw [hk] at hps; exact (List.nodup_cons.1 hps).2
    have hkn : k ∉ keys ps := by unfold Ok at hps; rw [hk] at hps; exact (List.nodup_cons.1 hps).1
    have skip : (∀ p a n, get? p ns = some n → ¬ (a = [] ∨ '.' ∈ a) → k ≠ Key.str (p ++ ['.'] ++ a)) →
        (∀ p n, get? p ns = some n → ∃ n', get? p (setParams text ps ns).1 = some n' ∧
          ∀ a, get? a n' = (if a = [] ∨ '.' ∈ a then get? a n
            else match get? (Key.str (p ++ ['.'] ++ a)) ps with
              | some v => some (.str (text v))
              | none => get? a n)) →
        ∀ p n, get? p ns = some n → ∃ n', get? p (setParams text ps ns).1 = some n' ∧
          ∀ a, get? a n' = (if a = [] ∨ '.' ∈ a then get? a n
            else match get? (Key.str (p ++ ['.'] ++ a)) ((k, v) :: ps) with
              | some v => some (.str (text v))
              | none => get? a n) := by
      intro hne h p n hp
      obtain ⟨n', h1, h2⟩ := h p n hp
      refine ⟨n', h1, fun a => ?_⟩
      rw [h2 a]
      by_cases ha : a = [] ∨ '.' ∈ a
      · rw [if_pos ha, if_pos ha]
      · rw [if_neg ha, if_neg ha, get?, if_neg (hne p a n hp ha)]
    cases k with
    | other i =>
      rw [setParams]
      obtain ⟨h1, h2, h3⟩ := ih hps' ns (fun k v h => hattr k v (List.mem_cons_of_mem _ h))
      exact ⟨h1, h2, skip (fun _ _ _ _ _ h => nomatch h) h3⟩
    | str k =>
      rw [setParams]
      cases hg : get? (Path.nodePathFromAttrPath k) ns with
      | none =>
        obtain ⟨h1, h2, h3⟩ := ih hps' ns (fun k v h => hattr k v (List.mem_cons_of_mem _ h))
        refine ⟨h1, h2, skip ?_ h3⟩
        intro p a n hp ha hkk
        simp only [Key.str.injEq] at hkk
        rw [not_or] at ha
        have := C14_attr_roundtrip p a ha.1 ha.2
        have e : Path.nodePathFromAttrPath k = p := by
          rw [hkk]; exact this.2.1
        rw [e, hp] at hg; cases hg
      | some n0 =>
        simp only
        have hne := hattr k v List.mem_cons_self (get?_isSome.1 (by rw [hg]; rfl))
        cases ha : Path.attrNameFromAttrPath k with
        | none => exact absurd ha hne
        | some a0 =>
          simp only
          obtain ⟨e1, e2, e3⟩ := attr_parts rfl ha
          generalize hp0 : Path.nodePathFromAttrPath k = p0 at *
          have hkeys : keys (set p0 (set a0 (.str (text v)) n0) ns) = keys ns := by
            rw [keys_set, if_pos (get?_isSome.1 (by rw [hg]; rfl))]
          obtain ⟨h1, h2, h3⟩ := ih hps' (set p0 (set a0 (.str (text v)) n0) ns)
            (fun k v h hk => hattr k v (List.mem_cons_of_mem _ h) (by rw [← hkeys]; exact hk))
          refine ⟨h1, by rw [h2, hkeys], fun p n hp => ?_⟩
          by_cases hpp : p = p0
          · subst hpp
            rw [hg] at hp
            cases hp
            obtain ⟨n', i1, i2⟩ := h3 p (set a0 (.str (text v)) n0) (by rw [get?_set, if_pos rfl])
            refine ⟨n', i1, fun a => ?_⟩
            rw [i2 a, get?_set]
            by_cases haa : a = a0
            · subst haa
              have hno : get? (Key.str (p ++ ['.'] ++ a)) ps = none := by
                rw [← e1]; exact get?_eq_none.2 hkn
              rw [if_neg (not_or.2 ⟨e2, e3⟩), if_neg (not_or.2 ⟨e2, e3⟩), hno]
              rw [if_pos rfl, e1, get?, if_pos rfl]
            · have hkne : Key.str k ≠ Key.str (p ++ ['.'] ++ a) := by
                intro h
                simp only [Key.str.injEq] at h
                rw [e1] at h
                exact haa (List.append_cancel_left h).symm
              rw [if_neg haa, get?, if_neg hkne]
          · obtain ⟨n', i1, i2⟩ := h3 p n (by rw [get?_set, if_neg hpp]; exact hp)
            refine ⟨n', i1, fun a => ?_⟩
            rw [i2 a]
            by_cases haa : a = [] ∨ '.' ∈ a
            · rw [if_pos haa, if_pos haa]
            · have hkne : Key.str k ≠ Key.str (p ++ ['.'] ++ a) := by
                intro h
                simp only [Key.str.injEq] at h
                rw [not_or] at haa
                have e : Path.nodePathFromAttrPath k = p := by
                  rw [h]; exact (C14_attr_roundtrip p a haa.1 haa.2).2.1
                exact hpp (by rw [← e, hp0])
              rw [if_neg haa, if_neg haa, get?, if_neg hkne]

/-- C42 fails for a key which names a node but no attribute: it is not skipped, the call fails and the
parameters after it are lost. -/
theorem C42_no_attr_violation {V : Type} (text : V → Str) (k : Str) (v : V) (ps : Dict Key V)
    (ns : Dict Str (Dict Str Val)) (h1 : '.' ∉ k) (h2 : k ∈ keys ns) :
    setParams text ((.str k, v) :: ps) ns = (ns, true) := by
  have hp : Path.pathAttrPartition k = (k, none) := by
    have : Path.isAttrPath k = false := by
      unfold Path.isAttrPath
      rw [← Bool.not_eq_true]
      simpa [Path.ATTR_SEP] using h1
    unfold Path.pathAttrPartition
    rw [if_pos (by rw [this]; simp)]
  obtain ⟨n, hn⟩ := Option.isSome_iff_exists.1 (get?_isSome.2 h2)
  rw [setParams]
  unfold Path.nodePathFromAttrPath Path.attrNameFromAttrPath
  rw [hp]
  simp only [hn]

/-- Two nodes, a new attribute, a missing node and a key which is no text. -/
example :
    let ns : Dict Str (Dict Str Val) := [("/a".toList, [("x".toList, .num 1)]), ("/b".toList, [])]
    let ps : Dict Key Str := [(.other 3, []), (.str "/a.x".toList, "7".toList), (.str "/b.new".toList, "8".toList),
      (.str "/c.x".toList, "9".toList)]
    (∀ k v, (Key.str k, v) ∈ ps → Path.nodePathFromAttrPath k ∈ keys ns → Path.attrNameFromAttrPath k ≠ none) ∧
    (setParams id ps ns).1 = [("/a".toList, [("x".toList, .str "7".toList)]), ("/b".toList, [("new".toList, .str "8".toList)])] := by
  refine ⟨?_, rfl⟩
  intro k v h _
  simp only [List.mem_cons, Prod.mk.injEq, Key.str.injEq, reduceCtorEq, false_and, List.not_mem_nil, or_false, false_or] at h
  rcases h with ⟨rfl, -⟩ | ⟨rfl, -⟩ | ⟨rfl, -⟩ <;> decide +kernel

/-! ## C43 -/

theorem cliLoop_good (ps : List (Str × Str)) (h : ∀ e ∈ ps, e.1.head? = some '/') (d : Dict Str Str) :
    cliLoop (ps.flatMap (fun e => [e.1, e.2])) d = .params (ps.foldl (fun d e => set e.1 e.2 d) d) := by
  induction ps generalizing d with
  | nil => rfl
  | cons e ps ih =>
    have hs : Py.startsWith e.1 ['/'] = true := by
      have := h e List.mem_cons_self
      cases he : e.1 with
      | nil => rw [he] at this; cases this
      | cons c s =>
        rw [he] at this
        simp only [List.head?_cons, Option.some.injEq] at this
        subst this
        simp [Py.startsWith, List.isPrefixOf]
    show cliLoop (e.1 :: e.2 :: ps.flatMap _) d = _
    rw [cliLoop, if_pos hs]
    exact ih (fun e he => h e (List.mem_cons_of_mem _ he)) _

/-- C43: a list of two or more pairs, or none, with keys starting at the root gives the dict in which each key
has the value of its last pair. -/
theorem C43_pairs (ps : List (Str × Str)) (h : ∀ e ∈ ps, e.1.head? = some '/') :
    ∃ d, cliParams (ps.flatMap (fun e => [e.1, e.2])) = .params d ∧ Ok d ∧
      ∀ k, get? k d = (ps.reverse.find? (fun e => e.1 = k)).map (fun e => e.2) := by
  refine ⟨ps.foldl (fun d e => set e.1 e.2 d) [], ?_, ?_, ?_⟩
  · have hl : ∀ qs : List (Str × Str), (qs.flatMap (fun e => [e.1, e.2])).length = 2 * qs.length := by
      intro qs
      induction qs with
      | nil => rfl
      | cons e qs ih =>
        rw [List.flatMap_cons, List.length_append, ih]
        simp only [List.length_cons, List.length_nil]
        omega
    unfold cliParams
    split
    · rename_i p hp
      have := congrArg List.length hp
      rw [hl] at this
      simp at this
      omega
    · rw [if_neg (by rw [hl]; omega)]
      exact cliLoop_good ps h []
  · exact ok_update (d := []) ok_nil ps
  · intro k
    have key : ∀ (ps : List (Str × Str)) (d : Dict Str Str), get? k (ps.foldl (fun d e => set e.1 e.2 d) d) =
        ((ps.reverse.find? (fun e => e.1 = k)).map (fun e => e.2)).or (get? k d) := by
      intro ps
      induction ps with
      | nil => intro d; rfl
      | cons e ps ih =>
        intro d
        rw [List.foldl_cons, ih, get?_set, List.reverse_cons, List.find?_append]
        cases hf : ps.reverse.find? (fun e => decide (e.1 = k)) with
        | some x => rfl
        | none =>
          by_cases he : e.1 = k
          · subst he; simp
          · simp [he, Ne.symm he]
    rw [key ps []]
    simp [get?]

/-- C43: the first key which does not start at the root is refused. -/
theorem C43_bad_key (ps : List (Str × Str)) (h : ∀ e ∈ ps, e.1.head? = some '/') (k v : Str)
    (hk : k.head? ≠ some '/') (rest : List Str) (hr : rest.length % 2 = 0) :
    cliParams (ps.flatMap (fun e => [e.1, e.2]) ++ k :: v :: rest) = .badKey k := by
  have hl : ∀ qs : List (Str × Str), (qs.flatMap (fun e => [e.1, e.2])).length = 2 * qs.length := by
    intro qs
    induction qs with
    | nil => rfl
    | cons e qs ih =>
      rw [List.flatMap_cons, List.length_append, ih]
      simp only [List.length_cons, List.length_nil]
      omega
  have hs : Py.startsWith k ['/'] = false := by
    rw [← Bool.not_eq_true]
    intro hh
    obtain ⟨t, rfl⟩ := Py.startsWith_iff.1 hh
    exact hk rfl
  have loop : ∀ (ps : List (Str × Str)) (d : Dict Str Str), (∀ e ∈ ps, e.1.head? = some '/') →
      cliLoop (ps.flatMap (fun e => [e.1, e.2]) ++ k :: v :: rest) d = .badKey k := by
    intro ps
    induction ps with
    | nil => intro d _; show cliLoop (k :: v :: rest) d = _; rw [cliLoop, hs]; rfl
    | cons e ps ih =>
      intro d h
      have hse : Py.startsWith e.1 ['/'] = true := by
        have := h e List.mem_cons_self
        cases he : e.1 with
        | nil => rw [he] at this; cases this
        | cons c s =>
          rw [he] at this
          simp only [List.head?_cons, Option.some.injEq] at this
          subst this
          simp [Py.startsWith, List.isPrefixOf]
      show cliLoop (e.1 :: e.2 :: (ps.flatMap _ ++ k :: v :: rest)) d = _
      rw [cliLoop, if_pos hse]
      exact ih _ (fun e he => h e (List.mem_cons_of_mem _ he))
  unfold cliParams
  split
  · rename_i p hp
    have := congrArg List.length hp
    rw [List.length_append, hl] at this
    simp at this
    omega
  · rw [if_neg (by rw [List.length_append, hl]; simp; omega)]
    exact loop ps [] h

/-- C43: one argument alone names a file; any other odd number is refused. -/
theorem C43_odd (args : List Str) (h : args.length % 2 = 1) :
    (∀ p, args = [p] → cliParams args = .file p) ∧ (args.length ≠ 1 → cliParams args = .oddCount) := by
  refine ⟨?_, fun h1 => ?_⟩
  · rintro p rfl; rfl
  · unfold cliParams
    split
    · exact absurd rfl h1
    · rw [if_pos (by omega)]

/-- The later value of a repeated key counts. -/
example : cliParams ["/a.x".toList, "1".toList, "/b.y".toList, "2".toList, "/a.x".toList, "3".toList] =
    .params [("/a.x".toList, "3".toList), ("/b.y".toList, "2".toList)] ∧
  cliParams ["/a.x".toList, "1".toList, "b".toList, "2".toList] = .badKey "b".toList ∧
  cliParams ["params.json".toList] = .file "params.json".toList := by decide +kernel

end Nxt.Props
