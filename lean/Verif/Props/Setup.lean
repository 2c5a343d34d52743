import Verif.Spec.Setup
import Verif.Props.Flow
import Verif.Props.Runtime
import Verif.Lemmas.Increment
import Verif.Lemmas.Inherit
/-!
# Properties of preparing a layer for an execution
-/
namespace Nxt.Props
open Dict NodeData Mro Rt Flow Spec Setup

namespace Preparing

/-! ### Tables of the nodes -/

/-- The tables of the nodes by path. -/
def tables (nodes : Dict Str Nat) (g : Classes) : Dict Str (Dict Str Val) := nodes.map (fun e => (e.1, g.own e.2))

theorem keys_tables (nodes : Dict Str Nat) (g : Classes) : keys (tables nodes g) = keys nodes := by
  unfold tables keys
  rw [List.map_map]
  rfl

theorem get?_tables (nodes : Dict Str Nat) (g : Classes) (p : Str) :
    get? p (tables nodes g) = (get? p nodes).map g.own := by
  unfold tables
  induction nodes with
  | nil => rfl
  | cons e nodes ih =>
    obtain ⟨q, c⟩ := e
    simp only [List.map_cons, get?]
    split
    · rfl
    · exact ih

theorem tables_set (nodes : Dict Str Nat) (hok : Ok nodes)
    (hinj : ∀ p q c, (p, c) ∈ nodes → (q, c) ∈ nodes → p = q) (g : Classes) {p : Str} {c : Nat}
    (h : get? p nodes = some c) (t : Dict Str Val) :
    tables nodes (setOwn g c t) = set p t (tables nodes g) := by
  have hm := mem_of_get? h
  unfold tables
  induction nodes with
  | nil => cases hm
  | cons e nodes ih =>
    obtain ⟨q, d⟩ := e
    simp only [List.map_cons]
    have hcons := List.nodup_cons.1 (show (q :: keys nodes).Nodup from hok)
    by_cases hq : q = p
    · subst hq
      have hd : d = c := by simpa [get?] using h
      subst hd
      rw [Dict.set, if_pos rfl]
      congr 1
      · unfold setOwn; simp
      · refine List.map_congr_left fun x hx => ?_
        have hne : x.2 ≠ d := by
          intro hx2
          have : x.1 = q := hinj x.1 q d (List.mem_cons_of_mem _ (by rw [← hx2]; exact hx)) List.mem_cons_self
          exact hcons.1 (by rw [← this]; exact List.mem_map_of_mem hx)
        unfold setOwn
        simp [hne]
    · have hdc : d ≠ c := by
        intro hdc
        exact hq (hinj q p c (by rw [hdc]; exact List.mem_cons_self) hm)
      have h' : get? p nodes = some c := by simpa [get?, hq] using h
      rw [Dict.set, if_neg hq, ih hcons.2 (fun p q c h1 h2 => hinj p q c (List.mem_cons_of_mem _ h1) (List.mem_cons_of_mem _ h2)) h'
        (mem_of_get? h')]
      congr 2
      unfold setOwn
      simp [hdc]

/-- Parameters on classes are parameters on their tables. -/
theorem params_tables {V : Type} (text : V → Str) (nodes : Dict Str Nat) (hok : Ok nodes)
    (hinj : ∀ p q c, (p, c) ∈ nodes → (q, c) ∈ nodes → p = q) (ps : Dict Key V) (g : Classes) :
    setParams text ps (tables nodes g) = (tables nodes (paramsTo text nodes ps g).1, (paramsTo text nodes ps g).2) := by
  induction ps generalizing g with
  | nil => rfl
  | cons x ps ih =>
    obtain ⟨k, v⟩ := x
    cases k with
    | other i => exact ih g
    | str k =>
      rw [setParams, paramsTo, get?_tables]
      cases hg : get? (Path.nodePathFromAttrPath k) nodes with
      | none => exact ih g
      | some c =>
        simp only [Option.map_some]
        cases ha : Path.attrNameFromAttrPath k with
        | none => rfl
        | some a =>
          simp only
          rw [← tables_set nodes hok hinj g hg, ih]

/-- Parameters touch tables of nodes only, and no bases. -/
theorem params_rest {V : Type} (text : V → Str) (nodes : Dict Str Nat) (ps : Dict Key V) (g : Classes) :
    (paramsTo text nodes ps g).1.size = g.size ∧ (paramsTo text nodes ps g).1.bases = g.bases ∧
    ∀ d, (∀ p, (p, d) ∉ nodes) → (paramsTo text nodes ps g).1.own d = g.own d := by
  induction ps generalizing g with
  | nil => exact ⟨rfl, rfl, fun _ _ => rfl⟩
  | cons x ps ih =>
    obtain ⟨k, v⟩ := x
    cases k with
    | other i => exact ih g
    | str k =>
      rw [paramsTo]
      cases hg : get? (Path.nodePathFromAttrPath k) nodes with
      | none => exact ih g
      | some c =>
        simp only
        cases ha : Path.attrNameFromAttrPath k with
        | none => exact ⟨rfl, rfl, fun _ _ => rfl⟩
        | some a =>
          obtain ⟨h1, h2, h3⟩ := ih (setOwn g c (set a (.str (text v)) (g.own c)))
          refine ⟨h1, h2, fun d hd => ?_⟩
          simp only
          rw [h3 d hd]
          have : d ≠ c := by rintro rfl; exact hd _ (mem_of_get? hg)
          unfold setOwn
          simp [this]

theorem foldl_paths (l : List (Str × Nat)) (hn : (l.map (fun e => e.2)).Nodup) (g : Classes) :
    let g' := l.foldl (fun g e => setOwn g e.2 (set A_NODE_PATH (.str e.1) (g.own e.2))) g
    g'.size = g.size ∧ g'.bases = g.bases ∧ (∀ p c, (p, c) ∈ l → g'.own c = set A_NODE_PATH (.str p) (g.own c)) ∧
    ∀ d, (∀ p, (p, d) ∉ l) → g'.own d = g.own d := by
  induction l generalizing g with
  | nil => exact ⟨rfl, rfl, (fun p c h => by cases h), fun _ _ => rfl⟩
  | cons x l ih =>
    obtain ⟨q, d⟩ := x
    obtain ⟨hn1, hn2⟩ := List.nodup_cons.1 (show (d :: l.map (fun e => e.2)).Nodup from hn)
    obtain ⟨h1, h2, h3, h4⟩ := ih hn2 (setOwn g d (set A_NODE_PATH (.str q) (g.own d)))
    refine ⟨h1, h2, fun p c hc => ?_, fun c hc => ?_⟩
    · rcases List.mem_cons.1 hc with h | h
      · obtain ⟨rfl, rfl⟩ := Prod.mk.inj h
        rw [List.foldl_cons, h4 c (fun p hp => hn1 (List.mem_map_of_mem (f := fun e => e.2) hp))]
        unfold setOwn; simp
      · have : c ≠ d := by rintro rfl; exact hn1 (List.mem_map_of_mem (f := fun e => e.2) h)
        rw [List.foldl_cons, h3 p c h]
        unfold setOwn; simp [this]
    · have : c ≠ d := by rintro rfl; exact hc q List.mem_cons_self
      rw [List.foldl_cons, h4 c (fun p hp => hc p (List.mem_cons_of_mem _ hp))]
      unfold setOwn; simp [this]

theorem nodup_classes {nodes : Dict Str Nat} (hok : Ok nodes)
    (hinj : ∀ p q c, (p, c) ∈ nodes → (q, c) ∈ nodes → p = q) : (nodes.map (fun e => e.2)).Nodup := by
  induction nodes with
  | nil => exact List.nodup_nil
  | cons x nodes ih =>
    obtain ⟨q, d⟩ := x
    have hcons := List.nodup_cons.1 (show (q :: keys nodes).Nodup from hok)
    refine List.nodup_cons.2 ⟨fun h => ?_, ih hcons.2
      (fun p q c h1 h2 => hinj p q c (List.mem_cons_of_mem _ h1) (List.mem_cons_of_mem _ h2))⟩
    obtain ⟨y, hy, hd⟩ := List.mem_map.1 h
    replace hd : y.2 = d := hd
    have : y.1 = q := hinj y.1 q d (List.mem_cons_of_mem _ (by rw [← hd]; exact hy)) List.mem_cons_self
    exact hcons.1 (by rw [← this]; exact List.mem_map_of_mem hy)

theorem paths_spec {nodes : Dict Str Nat} (hok : Ok nodes)
    (hinj : ∀ p q c, (p, c) ∈ nodes → (q, c) ∈ nodes → p = q) (g : Classes) :
    (setPaths nodes g).size = g.size ∧ (setPaths nodes g).bases = g.bases ∧
    (∀ p c, (p, c) ∈ nodes → p ≠ "/".toList → (setPaths nodes g).own c = set A_NODE_PATH (.str p) (g.own c)) ∧
    ∀ d, (∀ p, (p, d) ∈ nodes → p = "/".toList) → (setPaths nodes g).own d = g.own d := by
  have hn : ((nodes.filter (fun e => decide (e.1 ≠ Path.WORLD))).map (fun e => e.2)).Nodup :=
    (List.filter_sublist.map _).nodup (nodup_classes hok hinj)
  obtain ⟨h1, h2, h3, h4⟩ := foldl_paths _ hn g
  refine ⟨h1, h2, fun p c hc hp => ?_, fun d hd => ?_⟩
  · exact h3 p c (List.mem_filter.2 ⟨hc, decide_eq_true hp⟩)
  · refine h4 d fun p hp => ?_
    obtain ⟨h5, h6⟩ := List.mem_filter.1 hp
    exact of_decide_eq_true h6 (hd p h5)

theorem world_spec {nodes : Dict Str Nat} (hok : Ok nodes)
    (hinj : ∀ p q c, (p, c) ∈ nodes → (q, c) ∈ nodes → p = q) (g : Classes) (hlt : ∀ p c, (p, c) ∈ nodes → c < g.size) :
    let r := addWorld nodes g
    Ok r.1 ∧ (∀ p q c, (p, c) ∈ r.1 → (q, c) ∈ r.1 → p = q) ∧ get? "/".toList r.1 = some r.2.2 ∧
    (∀ p, p ≠ "/".toList → get? p r.1 = get? p nodes) ∧ (∀ d < g.size, r.2.1.bases d = g.bases d ∧ r.2.1.own d = g.own d) ∧
    g.size ≤ r.2.1.size ∧
    (∀ c, get? "/".toList nodes = some c → r = (nodes, g, c)) ∧
    (get? "/".toList nodes = none → r.2.1.own r.2.2 = [] ∧ g.size ≤ r.2.2 ∧ r.2.2 < r.2.1.size) := by
  have hw : Path.WORLD = "/".toList := rfl
  unfold addWorld
  rw [hw]
  cases hg : get? "/".toList nodes with
  | some c => exact ⟨hok, hinj, hg, fun _ _ => rfl, fun _ _ => ⟨rfl, rfl⟩, Nat.le_refl _,
      fun c' h => by rw [Option.some.inj h], fun h => by cases h⟩
  | none =>
    have hmem : ∀ p c, (p, c) ∈ Dict.set "/".toList (g.size + 1) nodes → (p = "/".toList ∧ c = g.size + 1) ∨ (p, c) ∈ nodes := by
      intro p c h
      have := get?_of_mem (ok_set hok "/".toList (g.size + 1)) h
      rw [get?_set] at this
      by_cases hp : p = "/".toList
      · rw [if_pos hp] at this; exact .inl ⟨hp, (Option.some.inj this).symm⟩
      · rw [if_neg hp] at this; exact .inr (mem_of_get? this)
    refine ⟨ok_set hok _ _, ?_, ?_, ?_, ?_, ?_, ?_, ?_⟩
    · intro p q c h1 h2
      rcases hmem p c h1 with ⟨h1, e1⟩ | h1 <;> rcases hmem q c h2 with ⟨h2, e2⟩ | h2
      · rw [h1, h2]
      · have := hlt q c h2; omega
      · have := hlt p c h1; omega
      · exact hinj p q c h1 h2
    · simp only; rw [get?_set, if_pos rfl]
    · intro p hp
      simp only
      rw [get?_set, if_neg hp]
    · intro d hd
      simp only
      rw [if_neg (by omega), if_neg (by omega), if_neg (by omega), if_neg (by omega)]
      exact ⟨rfl, rfl⟩
    · simp only; omega
    · intro c h; cases h
    · intro _
      simp only
      rw [if_neg (by omega)]
      exact ⟨by simp, by omega, by omega⟩

theorem attr_some {q a : Str} (h1 : a ≠ []) (h2 : '.' ∉ a) : Path.attrNameFromAttrPath (q ++ ".".toList ++ a) ≠ none := by
  unfold Path.attrNameFromAttrPath Path.pathAttrPartition
  rw [if_neg (by unfold Path.isAttrPath Path.ATTR_SEP; simp), if_neg]
  · split <;> simp
  · unfold Path.ATTR_SEP
    rw [List.getLast?_append]
    cases hl : a.getLast? with
    | none => exact absurd (List.getLast?_eq_none_iff.1 hl) h1
    | some x =>
      rw [Option.some_or]
      intro h
      rw [Option.some.inj h] at hl
      exact h2 (List.mem_of_getLast? hl)

/-! ### Globals -/

/-- The nodes a loop ran, from the state it started with to the one it left. -/
theorem chain_of_loop {σ : Type} (look : σ → Str → Option Val) (run : Str → σ → Exec.Times → Exec.Outcome × σ × Exec.Times)
    (clock : σ → Int) (ps : List Str) (s : σ) (ts : Exec.Times) {en : Exec.End} {s' : σ} {ts' : Exec.Times}
    {tr : List (Str × Exec.Outcome)} (h : Exec.execLoop look run clock ps s ts = (en, s', ts', tr)) :
    RunChain run s tr s' := by
  induction ps generalizing s ts en s' ts' tr with
  | nil =>
    simp only [Exec.execLoop, Prod.mk.injEq] at h
    obtain ⟨_, rfl, _, rfl⟩ := h
    exact .nil
  | cons p ps ih =>
    rw [Exec.execLoop] at h
    split at h
    · exact ih s ts h
    · simp only [Prod.mk.injEq] at h
      obtain ⟨_, rfl, _, rfl⟩ := h
      exact .nil
    · simp only at h
      split at h
      · simp only [Prod.mk.injEq] at h
        obtain ⟨_, rfl, _, rfl⟩ := h
        exact .cons .nil
      · split at h
        · simp only [Prod.mk.injEq] at h
          obtain ⟨_, rfl, _, rfl⟩ := h
          exact .cons .nil
        · split at h
          · simp only [Prod.mk.injEq] at h
            obtain ⟨_, rfl, _, rfl⟩ := h
            exact .cons .nil
          · simp only [Prod.mk.injEq] at h
            obtain ⟨_, rfl, _, rfl⟩ := h
            exact .cons .nil
          · simp only [Prod.mk.injEq] at h
            obtain ⟨_, rfl, _, rfl⟩ := h
            exact .cons (ih _ _ rfl)

end Preparing

open Classical in
/-- C141: what a run does to the globals.  If an attribute can not be read the code does not run and nothing changes.
Otherwise the code gets the globals with `self` being its frame, and of what it leaves exactly the names stay which
were there before, or for which a line of the code has the text `global <name>`; all of them if the console runs as
global. -/
theorem C141_run (e : Env) (he : ∀ code f, Ok (e.exec code f).1.globals) (p : Str) (c : Nat) (s : State) :
    let r := runNode e p c s
    (r.1 = .graphError ∧ r.2.globals = s.globals) ∨
    ∃ f : Frame, f.globals = set "self".toList e.selfObj s.globals ∧
      ∀ k, get? k r.2.globals =
        if e.asGlobal = true ∨ k ∈ keys s.globals ∨
          ∃ l ∈ e.lines (e.code s.classes c), Counts l ∧ Occurs ("global ".toList ++ k) l
        then get? k (e.exec (e.code s.classes c) f).1.globals else none := by
  simp only
  unfold runNode
  simp only
  split
  · right
    obtain ⟨f, h1, h2, h3⟩ := C41_run_partial e.builtins (fun a => (real e s.classes c a).getD .none) e.eq e.layer p
      (e.code s.classes c) (e.lines (e.code s.classes c)) e.selfObj (e.exec (e.code s.classes c)) (fun f => he _ f)
      (rtNode s.classes c) s.globals
    refine ⟨f, h1, fun k => ?_⟩
    cases hg : e.asGlobal with
    | true =>
      rw [h3, if_pos (.inl rfl)]
    | false =>
      rw [h2 k]
      have : ∀ P Q : Prop, (false = true ∨ P ∨ Q) = (P ∨ Q) := fun P Q => by simp
      simp only [this]
  · left
    exact ⟨rfl, rfl⟩

/-- C141, partial: the globals after an execution in which code is not run as global.  A name in the globals was there
when the nodes started, or is mentioned after `global ` in the code of a node which was run.

Missing: that the mention is a statement which declares the name, see `C41_undeclared_violation`. -/
theorem C141_names_partial (e : Env) (he : ∀ code f, Ok (e.exec code f).1.globals) (hg : e.asGlobal = false)
    (nodes : Dict Str Nat) (clock : State → Int) (ps : List Str) (s : State) (ts : Exec.Times)
    {en : Exec.End} {s' : State} {ts' : Exec.Times} {tr : List (Str × Exec.Outcome)}
    (h : execute e nodes clock ps s ts = (en, s', ts', tr)) (k : Str) (hk : k ∈ keys s'.globals) :
    k ∈ keys s.globals ∨ MentionedBy e nodes s tr k := by
  have hc := Preparing.chain_of_loop _ _ _ _ _ _ h
  clear h
  induction hc with
  | nil => exact .inl hk
  | @cons s s' p ts tr hc ih =>
    rcases ih hk with ih | ⟨tr1, q, o, tr2, s1, c, l, h1, h2, h3⟩
    · unfold runAt at ih
      cases hp : get? p nodes with
      | none => rw [hp] at ih; exact .inl ih
      | some c =>
        rw [hp] at ih
        rcases C141_run e he p c s with ⟨_, hr⟩ | ⟨f, _, hr⟩
        · rw [hr] at ih; exact .inl ih
        · rw [← get?_isSome, hr k] at ih
          rw [hg] at ih
          by_cases hh : k ∈ keys s.globals
          · exact .inl hh
          · refine .inr ?_
            split at ih
            · rename_i hif
              rcases hif with hif | hif | ⟨l, hl, hcount, hocc⟩
              · cases hif
              · exact absurd hif hh
              · exact ⟨[], p, _, tr, s, c, l, rfl, .nil, hp, hl, hcount, hocc⟩
            · cases ih
    · exact .inr ⟨_ :: tr1, q, o, tr2, s1, c, l, by rw [h1]; rfl, .cons h2, h3⟩

/-- C141: a name which is there when the nodes start, and which no code changes, has the same value for every node run
and afterwards; `self` is set for each run. -/
theorem C141_kept (e : Env) (he : ∀ code f, Ok (e.exec code f).1.globals)
    (nodes : Dict Str Nat) (clock : State → Int) (ps : List Str) (s : State) (ts : Exec.Times)
    {en : Exec.End} {s' : State} {ts' : Exec.Times} {tr : List (Str × Exec.Outcome)}
    (h : execute e nodes clock ps s ts = (en, s', ts', tr)) (k : Str) (hk : k ∈ keys s.globals) (hs : k ≠ "self".toList)
    (hex : ∀ code f, get? k (e.exec code f).1.globals = get? k f.globals) :
    get? k s'.globals = get? k s.globals := by
  have hc := Preparing.chain_of_loop _ _ _ _ _ _ h
  clear h
  induction hc with
  | nil => rfl
  | @cons s s' p ts tr hc ih =>
    have h1 : get? k (runAt e nodes p s ts).2.1.globals = get? k s.globals := by
      unfold runAt
      cases hp : get? p nodes with
      | none => rfl
      | some c =>
        rcases C141_run e he p c s with ⟨_, hr⟩ | ⟨f, hf, hr⟩
        · show get? k (runNode e p c s).2.globals = _
          rw [hr]
        · show get? k (runNode e p c s).2.globals = _
          rw [hr k, if_pos (.inr (.inl hk)), hex, hf, get?_set, if_neg hs]
    rw [ih (by rw [← get?_isSome, h1, get?_isSome]; exact hk), h1]

/-- C141, partial: the tables when the first node is run.  The nodes are those of the layer and the world.  The table of
a node has, for an attribute, the parameter for it as text, or else its path as `_node_path`, or else what it had; the
table of the world is what its code made of the same.  The code of the world runs after the parameters are set; it
finds exactly the names of the console, and every global it leaves is there for the nodes.  Classes of specs stay, and
so does the resolution order of every class.

Missing: parameters whose key is no path with an attribute name, see `C42_no_attr_violation`. -/
theorem C141_tables_partial {V : Type} (text : V → Str) (obj : Str → Val) (world : Val) (init : WorldCode)
    (code : Classes → Nat → Str) (nodes : Dict Str Nat) (ps : Dict Key V) (g : Classes) (globals : Dict Str Val)
    (hok : Ok nodes) (hinj : ∀ p q c, (p, c) ∈ nodes → (q, c) ∈ nodes → p = q) (hlt : ∀ p c, (p, c) ∈ nodes → c < g.size)
    (hcl : ∀ c < g.size, ∀ b ∈ g.bases c, b < g.size) (hps : Ok ps)
    (hkey : ∀ k v, (Key.str k, v) ∈ ps → ∃ q a, k = q ++ ".".toList ++ a ∧ a ≠ [] ∧ '.' ∉ a) :
    let r := setup text obj world init code nodes ps g globals
    (∀ p, p ≠ "/".toList → get? p r.2.1 = get? p nodes) ∧
    (∀ p c, get? p nodes = some c → p ≠ "/".toList → ∀ a,
      get? a (r.2.2.classes.own c) = startValue text ps p a (get? a (g.own c))) ∧
    (∀ d < g.size, d ∉ nodes.map (fun e => e.2) → r.2.2.classes.own d = g.own d) ∧
    (∀ d < g.size, (g.mro d).isSome → r.2.2.classes.mro d = g.mro d) ∧
    ∃ w n glob, get? "/".toList r.2.1 = some w ∧ (∀ c, get? "/".toList nodes = some c → w = c) ∧
      (∀ a, get? a n.own = startValue text ps "/".toList a ((get? "/".toList nodes).bind (fun c => get? a (g.own c)))) ∧
      (∀ k, k ∈ keys glob ↔ k ∈ consoleNames) ∧ get? "self".toList glob = some world ∧ get? "STAGE".toList glob = some world ∧
      ∃ text, r.2.2.classes.own w = (init text n glob).1 ∧ r.2.2.globals = (init text n glob).2.1 ∧
        (r.1 = .ready ↔ (init text n glob).2.2 = .ok) ∧
        ∀ o, r.1 = .raised o → (init text n glob).2.2 = o := by
  intro r
  obtain ⟨p1, p2, p3, p4⟩ := Preparing.paths_spec hok hinj g
  obtain ⟨w1, w2, w3, w4, w5, w6, w7, w8⟩ := Preparing.world_spec hok hinj (setPaths nodes g)
    (fun p c h => by rw [p1]; exact hlt p c h)
  have hr : r = setup text obj world init code nodes ps g globals := rfl
  unfold setup at hr
  generalize addWorld nodes (setPaths nodes g) = A at w1 w2 w3 w4 w5 w6 w7 w8 hr
  obtain ⟨nodes', g', w⟩ := A
  simp only at w1 w2 w3 w4 w5 w6 w7 w8 hr
  obtain ⟨q1, q2, q3⟩ := Preparing.params_rest text nodes' ps g'
  have hC := C42_params_partial text ps hps (Preparing.tables nodes' g') (fun k v hk _ => by
    obtain ⟨q, a, rfl, h1, h2⟩ := hkey k v hk
    exact Preparing.attr_some h1 h2)
  rw [Preparing.params_tables text nodes' w1 w2] at hC
  obtain ⟨c1, -, c3⟩ := hC
  simp only at c1 c3
  generalize hq : paramsTo text nodes' ps g' = Q at q1 q2 q3 c1 c3 hr
  rw [c1] at hr
  simp only [Bool.false_eq_true, if_false] at hr
  -- the tables of the nodes
  have htab : ∀ p c, get? p nodes' = some c → ∀ a, get? a (Q.1.own c) =
      (if a = [] ∨ '.' ∈ a then get? a (g'.own c)
        else match get? (Key.str (p ++ ['.'] ++ a)) ps with
          | some v => some (.str (text v))
          | none => get? a (g'.own c)) := by
    intro p c hc a
    obtain ⟨n', h1, h2⟩ := c3 p (g'.own c) (by rw [Preparing.get?_tables, hc]; rfl)
    rw [Preparing.get?_tables, hc] at h1
    rw [show Q.1.own c = n' from Option.some.inj h1]
    exact h2 a
  have hsize : g.size ≤ g'.size := by omega
  have hcls : r.2.1 = nodes' ∧ r.2.2.classes = setOwn Q.1 w (init (code Q.1 w) (rtNode Q.1 w) (consoleGlobals obj world)).1 ∧
      r.2.2.globals = (init (code Q.1 w) (rtNode Q.1 w) (consoleGlobals obj world)).2.1 ∧
      (r.1 = .ready ↔ (init (code Q.1 w) (rtNode Q.1 w) (consoleGlobals obj world)).2.2 = .ok) ∧
      ∀ o, r.1 = .raised o → (init (code Q.1 w) (rtNode Q.1 w) (consoleGlobals obj world)).2.2 = o := by
    rw [hr]
    cases (init (code Q.1 w) (rtNode Q.1 w) (consoleGlobals obj world)).2.2 <;> simp
  obtain ⟨k1, k2, k3, k4, k5⟩ := hcls
  have hnw : ∀ p c, get? p nodes' = some c → p ≠ "/".toList → c ≠ w := by
    intro p c hc hp hcw
    exact hp (w2 p "/".toList c (mem_of_get? hc) (by rw [hcw]; exact mem_of_get? w3))
  have hval : ∀ (p a : Str) (x : Dict Str Val), p ≠ "/".toList →
      get? a (Dict.set A_NODE_PATH (.str p) x) = if a = "_node_path".toList ∧ p ≠ "/".toList then some (.str p) else get? a x := by
    intro p a x hp
    rw [get?_set]
    by_cases ha : a = A_NODE_PATH
    · rw [if_pos ha, if_pos ⟨ha, hp⟩]
    · rw [if_neg ha, if_neg (fun h => ha h.1)]
  refine ⟨?_, ?_, ?_, ?_, w, rtNode Q.1 w, consoleGlobals obj world, ?_, ?_, ?_, ?_, rfl, rfl, code Q.1 w, ?_, k3, k4, k5⟩
  · intro p hp
    rw [k1]
    exact w4 p hp
  · intro p c hc hp a
    have hc' : get? p nodes' = some c := by rw [w4 p hp, hc]
    rw [k2]
    unfold setOwn
    simp only
    rw [if_neg (hnw p c hc' hp), htab p c hc' a]
    have hlt' : c < (setPaths nodes g).size := by rw [p1]; exact hlt p c (mem_of_get? hc)
    rw [(w5 c hlt').2, p3 p c (mem_of_get? hc) hp, hval p a _ hp]
    rfl
  · intro d hd hn
    have hdn : ∀ p, (p, d) ∉ nodes := fun p hp => hn (List.mem_map_of_mem (f := fun e => e.2) hp)
    have hdw : d ≠ w := by
      rintro rfl
      cases hg : get? "/".toList nodes with
      | some c =>
        have := w7 c hg
        have : d = c := congrArg (fun x => x.2.2) this
        exact hdn _ (mem_of_get? (by rw [this]; exact hg))
      | none =>
        have := (w8 hg).2.1
        omega
    have hdn' : ∀ p, (p, d) ∉ nodes' := by
      intro p hp
      by_cases hpw : p = "/".toList
      · subst hpw
        have := get?_of_mem w1 hp
        rw [w3] at this
        exact hdw (Option.some.inj this).symm
      · have := get?_of_mem w1 hp
        rw [w4 p hpw] at this
        exact hdn p (mem_of_get? this)
    rw [k2]
    unfold setOwn
    simp only
    rw [if_neg hdw, q3 d hdn', (w5 d (by omega)).2, p4 d (fun p hp => absurd hp (hdn p))]
  · intro d hd hs
    obtain ⟨l, hl⟩ := Option.isSome_iff_exists.1 hs
    rw [hl, k2]
    show lin Q.1.bases Q.1.size d = some l
    rw [q1, q2]
    refine lin_mono hsize (Increment.lin_extend (g := g) (g' := g') hcl ?_ g.size d l hd hl)
    intro d hd
    rw [(w5 d (by omega)).1, p2]
  · rw [k1]; exact w3
  · intro c hc
    exact congrArg (fun x => x.2.2) (w7 c hc)
  · intro a
    show get? a (Q.1.own w) = _
    rw [htab "/".toList w w3 a]
    have hbase : get? a (g'.own w) = (get? "/".toList nodes).bind (fun c => get? a (g.own c)) := by
      cases hg : get? "/".toList nodes with
      | some c =>
        have h7 := w7 c hg
        have e1 : g' = setPaths nodes g := congrArg (fun x => x.2.1) h7
        have e2 : w = c := congrArg (fun x => x.2.2) h7
        rw [e1, e2, Option.bind_some, p4 c]
        intro p hp
        exact hinj p "/".toList c hp (mem_of_get? hg)
      | none =>
        rw [(w8 hg).1]
        rfl
    rw [hbase]
    unfold startValue
    simp only [ne_eq, not_true, and_false, if_false]
    rfl
  · intro k
    exact Iff.rfl
  · rw [k2]
    unfold setOwn
    simp

/-- C141: executing on a new runtime layer: either preparing it fails, or the nodes are run on what it left.  Then a
name in the globals afterwards was left by the code of the world, or is mentioned by the code of a node. -/
theorem C141_new_partial {V : Type} (e : Env) (he : ∀ code f, Ok (e.exec code f).1.globals) (hg : e.asGlobal = false)
    (text : V → Str) (obj : Str → Val) (world : Val) (init : WorldCode) (nodes : Dict Str Nat) (ps : Dict Key V)
    (g : Classes) (globals : Dict Str Val) (clock : State → Int) (paths : List Str) :
    let r := setup text obj world init e.code nodes ps g globals
    (r.1 ≠ .ready ∧ executeNew e text obj world init nodes ps g globals clock paths = .error r.1) ∨
    ∃ x, r.1 = .ready ∧ executeNew e text obj world init nodes ps g globals clock paths = .ok x ∧
      x = execute e r.2.1 clock paths r.2.2 [] ∧
      ∀ k ∈ keys x.2.1.globals, k ∈ keys r.2.2.globals ∨ MentionedBy e r.2.1 r.2.2 x.2.2.2 k := by
  intro r
  unfold executeNew
  simp only
  cases h : r.1 with
  | ready =>
    refine .inr ⟨execute e r.2.1 clock paths r.2.2 [], rfl, ?_, rfl, fun k hk => ?_⟩
    · rfl
    · exact C141_names_partial e he hg r.2.1 clock paths r.2.2 [] rfl k hk
  | badParam =>
    exact .inl ⟨by simp, rfl⟩
  | raised o =>
    exact .inl ⟨by simp, rfl⟩

/-- C141 fails: code which leaves its node by `ExitNode` does so for the rest of that node only, but when the code of
the world does, nothing is run at all and the exception goes to the caller. -/
theorem C141_exit_violation {V : Type} (e : Env) (text : V → Str) (obj : Str → Val) (world : Val) (init : WorldCode)
    (nodes : Dict Str Nat) (g : Classes) (globals : Dict Str Val) (clock : State → Int) (paths : List Str)
    (h : ∀ c n g, (init c n g).2.2 = .exitNode) :
    executeNew (V := V) e text obj world init nodes [] g globals clock paths = .error (.raised .exitNode) := by
  unfold executeNew setup
  generalize addWorld nodes (setPaths nodes g) = A
  obtain ⟨nodes', g', w⟩ := A
  simp only [paramsTo, Bool.false_eq_true, if_false]
  generalize hi : init (e.code g' w) (rtNode g' w) (consoleGlobals obj world) = R
  have := h (e.code g' w) (rtNode g' w) (consoleGlobals obj world)
  rw [hi] at this
  rw [this]

/-! ### Examples -/

/-- A node `/a` with an attribute `x`, without and with a world node above it. -/
def exBare : Classes := ⟨3, fun d => if d = 1 then [0] else if d = 2 then [1] else [], fun d => if d = 1 then [("x".toList, .num 1)] else []⟩
def exUnder : Classes :=
  ⟨5, fun d => if d = 1 ∨ d = 3 then [0] else if d = 2 then [1] else if d = 4 then [3, 2] else [],
    fun d => if d = 3 then [("x".toList, .num 1)] else []⟩

/-- Code of the world which sets an attribute and a global, and reads a parameter. -/
def exWorld : WorldCode := fun _ n glob =>
  (set "seen".toList ((get? "y".toList n.own).getD .none) n.own, set "helper".toList (.num 7) glob, .ok)

/-- C141 fails: a parameter for an attribute of the world is seen by the nodes below it only if a layer has a world
node. -/
theorem C141_world_param_violation :
    let ps : Dict Key Str := [(.str "/.y".toList, "2".toList)]
    let r := setup id (fun _ => .none) .none exWorld (fun _ _ => []) [("/a".toList, 2)] ps exBare []
    let r' := setup id (fun _ => .none) .none exWorld (fun _ _ => []) [("/".toList, 2), ("/a".toList, 4)] ps exUnder []
    r.1 = .ready ∧ r'.1 = .ready ∧ (r.2.2.classes.attr? 2 "y".toList).isNone ∧
    (match r'.2.2.classes.attr? 4 "y".toList with | some (.str t) => t == "2".toList | _ => false) = true := by
  decide +kernel

/-- The theorem on the tables holds for this layer, with a parameter for the node and one for the world. -/
example :
    let ps : Dict Key Str := [(.str "/.y".toList, "2".toList), (.str "/a.x".toList, "9".toList)]
    let r := setup id (fun _ => .none) .none exWorld (fun _ _ => []) [("/".toList, 2), ("/a".toList, 4)] ps exUnder []
    r.1 = .ready ∧ (get? "helper".toList r.2.2.globals).isSome ∧
    get? "_node_path".toList (r.2.2.classes.own 4) = some (.str "/a".toList) ∧
    get? "x".toList (r.2.2.classes.own 4) = some (.str "9".toList) := by
  intro ps r
  obtain ⟨-, h2, -, -, w, n, glob, -, -, -, -, -, -, t, -, h3, h4, -⟩ := C141_tables_partial id (fun _ => .none) .none exWorld (fun _ _ => [])
    [("/".toList, 2), ("/a".toList, 4)] [(.str "/.y".toList, "2".toList), (.str "/a.x".toList, "9".toList)] exUnder []
    (by decide +kernel) (by
      intro p q c h1 h2
      simp only [List.mem_cons, List.not_mem_nil, or_false, Prod.mk.injEq] at h1 h2
      rcases h1 with ⟨rfl, rfl⟩ | ⟨rfl, rfl⟩ <;> rcases h2 with ⟨rfl, h⟩ | ⟨rfl, h⟩ <;> first | rfl | exact absurd h (by decide))
    (by
      intro p c h
      simp only [List.mem_cons, List.not_mem_nil, or_false, Prod.mk.injEq] at h
      rcases h with ⟨_, rfl⟩ | ⟨_, rfl⟩ <;> decide)
    (by decide +kernel) (by decide +kernel) (by
      intro k v h
      simp only [List.mem_cons, List.not_mem_nil, or_false, Prod.mk.injEq, Key.str.injEq] at h
      rcases h with ⟨rfl, _⟩ | ⟨rfl, _⟩
      · exact ⟨"/".toList, "y".toList, by decide +kernel, by decide +kernel, by decide +kernel⟩
      · exact ⟨"/a".toList, "x".toList, by decide +kernel, by decide +kernel, by decide +kernel⟩)
  refine ⟨h4.2 rfl, ?_, ?_, ?_⟩
  · rw [h3]
    unfold exWorld
    simp only
    rw [get?_set, if_pos rfl]
    rfl
  · rw [h2 "/a".toList 4 (by decide +kernel) (by decide +kernel)]
    rfl
  · rw [h2 "/a".toList 4 (by decide +kernel) (by decide +kernel)]
    rfl

/-- Code which defines two globals and declares one of them. -/
def exEnv : Env where
  builtins := []
  eq := fun _ _ => true
  layer := none
  resolve := fun _ _ t => some t
  lit := fun _ => .raw
  code := fun _ _ => "global kept".toList
  lines := fun t => [t]
  asGlobal := false
  selfObj := .none
  exec := fun _ f => (⟨f.self, set "kept".toList (.num 1) (set "lost".toList (.num 2) f.globals)⟩, .ok)

example : let r := executeNew (V := Str) exEnv id (fun _ => .none) .none exWorld [("/a".toList, 2)] [] exBare [] (fun _ => 0) ["/a".toList]
    (match r with
      | .ok x => some (x.1, keys x.2.1.globals)
      | .error _ => none) = some (.done, consoleNames ++ ["helper".toList, "kept".toList]) := by
  decide +kernel

end Nxt.Props
