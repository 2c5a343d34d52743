import Verif.Spec.Flow
import Verif.Lemmas.Runtime
import Verif.Lemmas.Dict
import Verif.Lemmas.Mro
import Verif.Props.Runtime
/-!
# Lemmas on values flowing from node to node
-/
namespace Nxt.Flow
open Dict NodeData Mro Rt Spec Props

theorem mro_setOwn (g : Classes) (c : Nat) (own : Dict Str Val) (d : Nat) : (setOwn g c own).mro d = g.mro d := rfl

theorem get?_flatMap {K V : Type} [DecidableEq K] (own : Nat → Dict K V) (k : K) (l : List Nat) :
    get? k (l.flatMap own) = l.findSome? (fun d => get? k (own d)) := by
  have happ : ∀ a b : Dict K V, get? k (a ++ b) = (get? k a).or (get? k b) := by
    intro a b
    induction a with
    | nil => rfl
    | cons x a ih =>
      obtain ⟨x1, x2⟩ := x
      simp only [List.cons_append, get?]
      split
      · rfl
      · exact ih
  induction l with
  | nil => rfl
  | cons d l ih =>
    rw [List.flatMap_cons, happ, ih, List.findSome?_cons]
    cases get? k (own d) <;> rfl

/-- What a class sees is its own or inherited. -/
theorem attr?_iff {g : Classes} {c : Nat} {rest : List Nat} (hm : g.mro c = some (c :: rest)) (a : Str) :
    (a ∈ keys (rtNode g c).own ∨ a ∈ keys (rtNode g c).inherited) ↔ (g.attr? c a).isSome := by
  unfold rtNode Classes.attr?
  rw [hm]
  simp only [Option.getD_some, List.tail_cons, Option.bind_some, List.findSome?_cons]
  rw [← get?_isSome, ← get?_isSome, get?_flatMap]
  cases get? a (g.own c) <;> simp

theorem userAttr_iff {g : Classes} {c : Nat} {rest : List Nat} (hm : g.mro c = some (c :: rest)) (builtins : List Str)
    (a : Str) : UserAttr builtins (rtNode g c) a ↔ FlowName builtins a ∧ (g.attr? c a).isSome := by
  unfold UserAttr FlowName
  rw [attr?_iff hm]
  constructor
  · rintro ⟨h, h'⟩; exact ⟨h', h⟩
  · rintro ⟨h', h⟩; exact ⟨h, h'⟩

theorem read_iff (resolve : Str → Option Str) (lit : Str → Lit) (v u : Val) :
    realOf resolve lit v = some u ↔ Read resolve lit v u := by
  constructor
  · intro h
    cases v with
    | str s =>
      rw [realOf] at h
      cases hr : resolve s with
      | none => rw [hr] at h; cases h
      | some t =>
        rw [hr] at h
        simp only at h
        cases hl : lit t with
        | raw => rw [hl] at h; cases h; exact .text hr (.inl hl)
        | str => rw [hl] at h; cases h; exact .text hr (.inr hl)
        | val v => rw [hl] at h; cases h; exact .literal hr hl
        | raises => rw [hl] at h; cases h
    | none => cases h; exact .other (fun _ h => nomatch h)
    | bool b => cases h; exact .other (fun _ h => nomatch h)
    | num b => cases h; exact .other (fun _ h => nomatch h)
    | list b => cases h; exact .other (fun _ h => nomatch h)
    | dict b => cases h; exact .other (fun _ h => nomatch h)
    | src b _ => cases h; exact .other (fun _ h => nomatch h)
    | other b _ _ => cases h; exact .other (fun _ h => nomatch h)
  · intro h
    cases h with
    | other hv =>
      cases v with
      | str s => exact absurd rfl (hv s)
      | _ => rfl
    | text hr hl => rw [realOf, hr]; rcases hl with hl | hl <;> simp only [hl]
    | literal hr hl => rw [realOf, hr]; simp only [hl]

/-- The code of a node deletes no attribute of its frame. -/
def Keeps (e : Env) : Prop := ∀ code f a, a ∈ keys f.self → a ∈ keys (e.exec code f).1.self

theorem _root_.Nxt.Spec.FlowName.no_source {builtins : List Str} {a : Str} (h : FlowName builtins a) : ¬ ∃ b, a = b ++ "_source__nxt".toList := by
  rintro ⟨b, rfl⟩
  exact h.2.2 ⟨b ++ "_source".toList, by rw [List.append_assoc]; rfl⟩

theorem _root_.Nxt.Spec.FlowName.ne_cached {builtins : List Str} {a : Str} (h : FlowName builtins a) : a ≠ "_cached_code".toList := by
  rintro rfl
  exact h.2.1 (by decide +kernel)

theorem get?_cached (e : Env) (g : Classes) (c : Nat) {a : Str} (h : a ≠ "_cached_code".toList) (d : Nat) :
    get? a ((cached e g c).own d) = get? a (g.own d) := by
  unfold cached setOwn
  simp only
  split
  · rename_i hd
    subst hd
    rw [get?_set, if_neg (show ¬ a = A_CACHED from h)]
  · rfl

theorem attr?_cached (e : Env) (g : Classes) (c : Nat) {a : Str} (h : a ≠ "_cached_code".toList) (d : Nat) :
    (cached e g c).attr? d a = g.attr? d a := by
  unfold Classes.attr?
  rw [show (cached e g c).mro d = g.mro d from rfl]
  simp only [get?_cached e g c h]

theorem mem_attrs (e : Env) {g : Classes} {c : Nat} {rest : List Nat} (hm : g.mro c = some (c :: rest)) (a : Str) :
    a ∈ attrs e g c ↔ FlowName e.builtins a ∧ (g.attr? c a).isSome := by
  have hu := user_iff e.builtins (rtNode g c) (.str (e.code g c)) a
  rw [userAttr_iff hm] at hu
  rw [← hu]
  unfold attrs
  have : rtNode (cached e g c) c = { rtNode g c with own := set A_CACHED (.str (e.code g c)) (rtNode g c).own } := by
    unfold rtNode
    congr 1
    · unfold cached setOwn
      simp
    · rw [show (cached e g c).mro c = g.mro c from rfl, hm]
      simp only [Option.getD_some, List.tail_cons]
      rw [List.flatMap_def, List.flatMap_def]
      refine congrArg List.flatten (List.map_congr_left fun d hd => ?_)
      have hn : (c :: rest).Nodup := lin_nodup hm
      unfold cached setOwn
      simp only
      rw [if_neg]
      rintro rfl
      exact (List.nodup_cons.1 hn).1 hd
  rw [this]

theorem get?_sourcesTo (e : Env) (g : Classes) (c : Nat) (path : Str) {a : Str} (h : ¬ ∃ b, a = b ++ "_source__nxt".toList)
    (l : List Str) (own : Dict Str Val) : get? a (sourcesTo e g c path l own) = get? a own := by
  induction l generalizing own with
  | nil => rfl
  | cons x l ih =>
    rw [sourcesTo]
    have hx : get? a (set (x ++ M_SOURCE) (.src e.layer path) own) = get? a own := by
      rw [get?_set, if_neg (show ¬ a = x ++ M_SOURCE from fun hh => h ⟨x, hh⟩)]
    split
    · rw [ih, hx]
    · exact hx

open Classical in
/-- A run leaves the other classes, all bases and the attributes of nxt, but for the kept code, alone. -/
theorem runNode_rest (e : Env) (hk : Keeps e) (path : Str) (c : Nat) (s : State) :
    (∀ d, d ≠ c → (runNode e path c s).2.classes.own d = s.classes.own d) ∧
      (runNode e path c s).2.classes.bases = s.classes.bases ∧
      (runNode e path c s).2.classes.size = s.classes.size ∧
      ∀ x ∈ reservedNames, x ≠ "_cached_code".toList →
        get? x ((runNode e path c s).2.classes.own c) = get? x (s.classes.own c) := by
  have henS : ∀ x ∈ reservedNames, ¬ ∃ b, x = b ++ "_source__nxt".toList := by
    have : ∀ x ∈ reservedNames, ("_source__nxt".toList).isSuffixOf x = false := by decide +kernel
    rintro x hx ⟨b, hb⟩
    have h1 := this x hx
    rw [hb] at h1
    rw [List.isSuffixOf_iff_suffix.2 ⟨b, rfl⟩] at h1
    cases h1
  by_cases hall : (attrs e s.classes c).all (fun a => (real e s.classes c a).isSome) = true
  · have hrun : runNode e path c s = (let code := e.code s.classes c
        let r := Rt.run e.builtins (fun a => (real e s.classes c a).getD .none) e.eq e.layer path code (e.lines code)
          e.asGlobal e.selfObj (e.exec code) (rtNode s.classes c) s.globals
        (r.1, ⟨setOwn s.classes c r.2.1.own, r.2.2⟩)) := by
      unfold runNode
      simp only [hall, if_true]
    obtain ⟨f, f1, f2, f3⟩ := C40_run_partial e.builtins (fun a => (real e s.classes c a).getD .none) e.eq e.layer path
      (e.code s.classes c) (e.lines (e.code s.classes c)) e.asGlobal e.selfObj (e.exec (e.code s.classes c))
      (rtNode s.classes c) s.globals
    obtain ⟨-, r2, r3, r4⟩ := f3
    generalize hr : Rt.run e.builtins (fun a => (real e s.classes c a).getD .none) e.eq e.layer path
      (e.code s.classes c) (e.lines (e.code s.classes c)) e.asGlobal e.selfObj (e.exec (e.code s.classes c))
      (rtNode s.classes c) s.globals = r at r2 r3 r4 hrun
    have hrun2 : (runNode e path c s).2.classes = setOwn s.classes c r.2.1.own := by rw [hrun, ← hr]
    have hown : (setOwn s.classes c r.2.1.own).own c = r.2.1.own := by unfold setOwn; simp
    have hself : ∀ a, UserAttr e.builtins (rtNode s.classes c) a → a ∈ keys (e.exec (e.code s.classes c) f).1.self := by
      intro a ha
      refine hk _ _ _ ?_
      rw [← get?_isSome, f1, if_pos ha]; rfl
    refine ⟨?_, ?_, ?_, ?_⟩
    · intro d hd
      rw [hrun2]
      unfold setOwn
      simp [hd]
    · rw [hrun2]; rfl
    · rw [hrun2]; rfl
    · intro x hx henC
      rw [hrun2, hown]
      have hnu : ¬ UserAttr e.builtins (rtNode s.classes c) x := fun h => h.2.2.1 hx
      have hb : bookkeeping e.builtins (rtNode s.classes c) e.layer path (e.code s.classes c) x =
          get? x (s.classes.own c) := by
        unfold bookkeeping
        rw [if_neg (fun ⟨a, _, h⟩ => henS x hx ⟨a, h⟩), if_neg henC]
        rfl
      by_cases he : (e.exec (e.code s.classes c) f).2 = .error
      · rw [(r2 he).2, hb]
      · rw [((r3 he hself).2 _).2 (.inl hnu), hb]
  · have hrun : runNode e path c s = (.graphError,
        ⟨setOwn s.classes c (sourcesTo e s.classes c path (attrs e s.classes c) ((cached e s.classes c).own c)), s.globals⟩) := by
      unfold runNode
      simp only [hall]
      rfl
    refine ⟨?_, ?_, ?_, ?_⟩
    · intro d hd
      rw [hrun]
      unfold setOwn
      simp [hd]
    · rw [hrun]; rfl
    · rw [hrun]; rfl
    · intro x hx henC
      rw [hrun]
      unfold setOwn
      simp only [if_true]
      rw [get?_sourcesTo _ _ _ _ (henS x hx), get?_cached _ _ _ henC]

open Classical in
/-- One run in full: an attribute can not be read, or the code runs on a frame with exactly the values read. -/
theorem runNode_full (e : Env) (hk : Keeps e) (path : Str) {c : Nat} {s : State} {rest : List Nat}
    (hm : s.classes.mro c = some (c :: rest)) :
    let res := e.resolve (cached e s.classes c) c
    let code := e.code s.classes c
    let r := runNode e path c s
    ((∃ a v, FlowName e.builtins a ∧ s.classes.attr? c a = some v ∧ realOf res e.lit v = none) ∧ outcome r.1 = .error ∧
      (∀ a, FlowName e.builtins a → get? a (r.2.classes.own c) = get? a (s.classes.own c)) ∧ r.2.globals = s.globals) ∨
    (∀ a v, FlowName e.builtins a → s.classes.attr? c a = some v → realOf res e.lit v ≠ none) ∧
      ∃ f : Frame, f.globals = set "self".toList e.selfObj s.globals ∧
        (∀ a, get? a f.self = if FlowName e.builtins a then (s.classes.attr? c a).bind (realOf res e.lit)
          else if a = "_cached_code".toList then some (.str code)
          else if a = "_node_path".toList then some (.str path) else none) ∧
        outcome r.1 = (e.exec code f).2 ∧
        (∀ a, FlowName e.builtins a → get? a (r.2.classes.own c) =
          (if (e.exec code f).2 = .error then none
            else changes e.eq (fun a => get? a f.self) (fun a => get? a (e.exec code f).1.self) a).or
            (get? a (s.classes.own c))) ∧
        r.2.globals = if e.asGlobal then (e.exec code f).1.globals
          else cleanGlobals (e.lines code) (keys s.globals) (e.exec code f).1.globals := by
  intro res code rn
  by_cases hall : (attrs e s.classes c).all (fun a => (real e s.classes c a).isSome) = true
  · -- the code runs
    have hrun : runNode e path c s = (let code := e.code s.classes c
        let r := Rt.run e.builtins (fun a => (real e s.classes c a).getD .none) e.eq e.layer path code (e.lines code)
          e.asGlobal e.selfObj (e.exec code) (rtNode s.classes c) s.globals
        (r.1, ⟨setOwn s.classes c r.2.1.own, r.2.2⟩)) := by
      unfold runNode
      simp only [hall, if_true]
    obtain ⟨f, f1, f2, f3⟩ := C40_run_partial e.builtins (fun a => (real e s.classes c a).getD .none) e.eq e.layer path
      (e.code s.classes c) (e.lines (e.code s.classes c)) e.asGlobal e.selfObj (e.exec (e.code s.classes c))
      (rtNode s.classes c) s.globals
    obtain ⟨⟨-, r1⟩, r2, r3, r4⟩ := f3
    generalize hr : Rt.run e.builtins (fun a => (real e s.classes c a).getD .none) e.eq e.layer path
      (e.code s.classes c) (e.lines (e.code s.classes c)) e.asGlobal e.selfObj (e.exec (e.code s.classes c))
      (rtNode s.classes c) s.globals = r at r1 r2 r3 r4 hrun
    have hrun1 : rn.1 = r.1 := by show (runNode e path c s).1 = _; rw [hrun, ← hr]
    have hrun2 : rn.2.classes = setOwn s.classes c r.2.1.own := by
      show (runNode e path c s).2.classes = _; rw [hrun, ← hr]
    have hrun3 : rn.2.globals = r.2.2 := by show (runNode e path c s).2.globals = _; rw [hrun, ← hr]
    have hown : (setOwn s.classes c r.2.1.own).own c = r.2.1.own := by unfold setOwn; simp
    have hread : ∀ a v, FlowName e.builtins a → s.classes.attr? c a = some v →
        real e s.classes c a = realOf res e.lit v ∧ (realOf res e.lit v).isSome := by
      intro a v ha hv
      have h1 : (real e s.classes c a).isSome := List.all_eq_true.1 hall a ((mem_attrs e hm a).2 ⟨ha, by rw [hv]; rfl⟩)
      have hat : s.classes.attr c a = v := by unfold Classes.attr; rw [hv]; rfl
      unfold real at h1 ⊢
      rw [hat] at h1 ⊢
      exact ⟨rfl, h1⟩
    have hframe : ∀ a, FlowName e.builtins a → get? a f.self = (s.classes.attr? c a).bind (realOf res e.lit) := by
      intro a ha
      rw [f1, userAttr_iff hm]
      cases hv : s.classes.attr? c a with
      | none =>
        rw [if_neg (by simp), if_neg ha.ne_cached, if_neg (fun h => ha.2.1 (by rw [h]; decide +kernel))]
        rfl
      | some v =>
        rw [if_pos ⟨ha, rfl⟩]
        obtain ⟨h1, h2⟩ := hread a v ha hv
        obtain ⟨u, hu⟩ := Option.isSome_iff_exists.1 h2
        rw [Option.bind_some, h1, hu]; rfl
    have hself : ∀ a, UserAttr e.builtins (rtNode s.classes c) a → a ∈ keys (e.exec (e.code s.classes c) f).1.self := by
      intro a ha
      refine hk _ _ _ ?_
      rw [← get?_isSome, f1, if_pos ha]; rfl
    have hbook : ∀ k, (¬ ∃ b, k = b ++ "_source__nxt".toList) → k ≠ "_cached_code".toList →
        bookkeeping e.builtins (rtNode s.classes c) e.layer path (e.code s.classes c) k = get? k (s.classes.own c) := by
      intro k h1 h2
      unfold bookkeeping
      rw [if_neg (fun ⟨a, _, h⟩ => h1 ⟨a, h⟩), if_neg h2]
      rfl
    have hout : outcome r.1 = (e.exec (e.code s.classes c) f).2 := by
      by_cases he : (e.exec (e.code s.classes c) f).2 = .error
      · rw [(r2 he).1, he]; rfl
      · rw [(r3 he hself).1]
        revert he
        cases (e.exec (e.code s.classes c) f).2 <;> intro he <;> first | rfl | exact absurd rfl he
    refine .inr ⟨fun a v ha hv h => ?_, f, f2, fun a => ?_, by rw [hrun1, hout], fun a ha => ?_, by rw [hrun3, r1]⟩
    · rw [← Option.not_isSome_iff_eq_none] at h
      exact h (hread a v ha hv).2
    · by_cases ha : FlowName e.builtins a
      · rw [if_pos ha, hframe a ha]
      · rw [if_neg ha, f1, if_neg (fun h => ha ((userAttr_iff hm _ _).1 h).1)]
    · rw [hrun2, hown]
      have hb := hbook a ha.no_source ha.ne_cached
      by_cases he : (e.exec (e.code s.classes c) f).2 = .error
      · rw [(r2 he).2 a, hb, if_pos he, Option.none_or]
      · obtain ⟨k1, k2⟩ := (r3 he hself).2 a
        rw [if_neg he]
        unfold changes
        by_cases hv : (s.classes.attr? c a).isSome
        · have hua := (userAttr_iff hm e.builtins a).2 ⟨ha, hv⟩
          have hfa : get? a f.self = some ((real e s.classes c a).getD .none) := by rw [f1, if_pos hua]
          obtain ⟨post, hp⟩ := Option.isSome_iff_exists.1 (get?_isSome.2 (hself a hua))
          simp only [hfa, hp, code]
          cases heq : e.eq ((real e s.classes c a).getD .none) post with
          | true => rw [k2 (.inr ⟨post, hp, heq⟩), hb]; simp
          | false => rw [k1 post hua hp heq]; simp
        · have hnu : ¬ UserAttr e.builtins (rtNode s.classes c) a := fun h => hv ((userAttr_iff hm _ _).1 h).2
          have hfa : get? a f.self = none := by
            rw [hframe a ha, Option.not_isSome_iff_eq_none.1 hv]; rfl
          simp only [hfa]
          rw [k2 (.inl hnu), hb]
          simp
  · -- an attribute can not be read
    have hrun : runNode e path c s = (.graphError,
        ⟨setOwn s.classes c (sourcesTo e s.classes c path (attrs e s.classes c) ((cached e s.classes c).own c)), s.globals⟩) := by
      unfold runNode
      simp only [hall]
      rfl
    have hown : ∀ a, (¬ ∃ b, a = b ++ "_source__nxt".toList) → a ≠ "_cached_code".toList →
        get? a (rn.2.classes.own c) = get? a (s.classes.own c) := by
      intro a h1 h2
      show get? a ((runNode e path c s).2.classes.own c) = _
      rw [hrun]
      unfold setOwn
      simp only [if_true]
      rw [get?_sourcesTo _ _ _ _ h1, get?_cached _ _ _ h2]
    refine .inl ⟨?_, by show outcome (runNode e path c s).1 = _; rw [hrun]; rfl, fun a ha => hown a ha.no_source ha.ne_cached,
      by show (runNode e path c s).2.globals = _; rw [hrun]⟩
    have : ∃ a ∈ attrs e s.classes c, (real e s.classes c a).isSome = false := by
      rw [Bool.not_eq_true, List.all_eq_false] at hall
      obtain ⟨a, h1, h2⟩ := hall
      exact ⟨a, h1, by simpa using h2⟩
    obtain ⟨a, h1, h2⟩ := this
    obtain ⟨h3, h4⟩ := (mem_attrs e hm a).1 h1
    obtain ⟨v, hv⟩ := Option.isSome_iff_exists.1 h4
    refine ⟨a, v, h3, hv, ?_⟩
    unfold real Classes.attr at h2
    rw [hv, Option.getD_some] at h2
    rw [← Option.not_isSome_iff_eq_none]
    show ¬ (realOf (e.resolve (cached e s.classes c) c) e.lit v).isSome = true
    rw [h2]
    simp

/-- One run: what it says, what is written, and that nothing else changes. -/
theorem runNode_says (e : Env) (hk : Keeps e) (path : Str) {c : Nat} {s : State} {rest : List Nat}
    (hm : s.classes.mro c = some (c :: rest)) :
    ∃ w : Str → Option Val,
      RunSays e (e.resolve (cached e s.classes c) c) (e.code s.classes c) s.globals (s.classes.attr? c)
        (outcome (runNode e path c s).1) w ∧
      (∀ a, FlowName e.builtins a →
        get? a ((runNode e path c s).2.classes.own c) = (w a).or (get? a (s.classes.own c))) := by
  classical
  rcases runNode_full e hk path hm with ⟨⟨a, v, h1, h2, h3⟩, h4, h5, -⟩ | ⟨h0, f, h1, h2, h3, h4, -⟩
  · refine ⟨fun _ => none, .inl ⟨⟨a, v, h1, h2, fun u hu => ?_⟩, h4, fun _ => rfl⟩, fun a ha => by rw [h5 a ha, Option.none_or]⟩
    rw [(read_iff _ _ _ _).2 hu] at h3
    cases h3
  · refine ⟨_, .inr ⟨f, h1, fun a ha => ?_, h3, fun a ha => by rw [h3]⟩, h4⟩
    have hu := h2 a
    rw [if_pos ha] at hu
    cases hv : s.classes.attr? c a with
    | none => rw [hv] at hu; exact .inl ⟨rfl, hu⟩
    | some v =>
      rw [hv, Option.bind_some] at hu
      cases hr : realOf (e.resolve (cached e s.classes c) c) e.lit v with
      | none => exact absurd hr (h0 a v ha hv)
      | some u => exact .inr ⟨v, u, rfl, hu.trans hr, (read_iff _ _ _ _).1 hr⟩

end Nxt.Flow
