import Verif.Spec.Contexts
import Verif.Lemmas.Py
import Verif.Lemmas.Version
import Verif.Lemmas.Names
import Verif.Props.Runtime
/-!
# Properties C121 and C122: remote contexts
-/
namespace Nxt.Props
open Spec Contexts Py

namespace ContextLemmas

theorem startsWith_slash {p : Str} : startsWith p ['/'] = true ↔ Absolute p := by
  rw [startsWith_iff]
  rfl

theorem absolute_no_dash {p : Str} (h : Absolute p) : startsWith p ['-'] = false := by
  obtain ⟨t, rfl⟩ := h
  rfl

theorem absolute_ne_dashes {p : Str} (h : Absolute p) : p ≠ "--".toList := by
  obtain ⟨t, rfl⟩ := h
  intro h
  exact absurd (List.cons.inj h).1 (by decide)

theorem absolute_ne_nil {p : Str} (h : Absolute p) : p ≠ [] := by
  obtain ⟨t, rfl⟩ := h
  simp

theorem expand_absolute {vars : Str → Str} {cwd p : Str} (hc : Absolute cwd) : Absolute (expand vars cwd p) := by
  unfold expand
  split
  · rename_i h; exact startsWith_slash.1 h
  · obtain ⟨t, rfl⟩ := hc
    exact ⟨_, rfl⟩

theorem find_some {cs : List Context} {name : Str} {c : Context} :
    find name cs = some c ↔ FirstNamed cs name c := by
  induction cs with
  | nil =>
    constructor
    · intro h; cases h
    · rintro ⟨bf, af, h, -⟩; simp at h
  | cons d cs ih =>
    rw [find]
    by_cases hd : d.name = name
    · rw [if_pos hd]
      constructor
      · intro h; cases h; exact ⟨[], cs, rfl, hd, by simp⟩
      · rintro ⟨bf, af, h1, h2, h3⟩
        cases bf with
        | nil => cases h1; rfl
        | cons b bf => cases h1; exact absurd hd (h3 _ (by simp))
    · rw [if_neg hd, ih]
      constructor
      · rintro ⟨bf, af, rfl, h2, h3⟩
        refine ⟨d :: bf, af, rfl, h2, ?_⟩
        intro x hx
        rcases List.mem_cons.1 hx with rfl | hx
        · exact hd
        · exact h3 x hx
      · rintro ⟨bf, af, h1, h2, h3⟩
        cases bf with
        | nil => cases h1; exact absurd h2 hd
        | cons b bf => cases h1; exact ⟨bf, af, rfl, h2, fun x hx => h3 x (by simp [hx])⟩

theorem find_none {cs : List Context} {name : Str} : find name cs = none ↔ name ∉ names cs := by
  induction cs with
  | nil => simp [find, names]
  | cons d cs ih =>
    rw [find]
    by_cases hd : d.name = name
    · rw [if_pos hd]; simp [names, hd]
    · rw [if_neg hd, ih]; simp [names, Ne.symm hd]

theorem find_append (name : Str) (cs ds : List Context) :
    find name (cs ++ ds) = (find name cs).or (find name ds) := by
  induction cs with
  | nil => rfl
  | cons d cs ih =>
    rw [List.cons_append, find, find]
    split
    · rfl
    · exact ih

theorem mainArgs_plain {script : Str} {cli : List Str} (h1 : script ≠ "--".toList) (h : "--".toList ∉ cli) :
    mainArgs (script :: cli) = cli := by
  unfold mainArgs
  rw [if_neg]
  · rfl
  · rw [List.mem_cons]
    rintro (h2 | h2)
    · exact h1 h2.symm
    · exact h h2

theorem mainArgs_dashes {pre cli : List Str} (h : "--".toList ∉ pre) :
    mainArgs (pre ++ "--".toList :: cli) = cli := by
  unfold mainArgs
  rw [if_pos (by simp)]
  rw [show (pre ++ "--".toList :: cli).idxOf "--".toList = pre.length from by
    rw [List.idxOf_append, if_neg h, List.idxOf_cons_self, Nat.zero_add]]
  simp

theorem truthy_abs {o : Option Str} (h : ∀ s, o = some s → Absolute s) : truthy o = o := by
  cases o with
  | none => rfl
  | some s => simp [truthy, absolute_ne_nil (h s rfl)]

/-- The arguments for some parameters are read back. -/
theorem parse_pairs {L : List (Str × Str)} (hL : ∀ e ∈ L, Absolute e.1 ∧ Absolute e.2) {G : Str} (hG : Absolute G) :
    "--".toList ∉ ["exec".toList, G, "-p".toList] ++ L.flatMap (fun e => [e.1, e.2]) ∧
    parseExec (["exec".toList, G, "-p".toList] ++ L.flatMap (fun e => [e.1, e.2])) =
      some (G, L.flatMap (fun e => [e.1, e.2])) ∧
    Rt.cliParams (L.flatMap (fun e => [e.1, e.2])) = .params (L.foldl (fun d e => Dict.set e.1 e.2 d) []) := by
  have hm : ∀ x ∈ L.flatMap (fun e => [e.1, e.2]), Absolute x := by
    intro x hx
    obtain ⟨e, h1, h2⟩ := List.mem_flatMap.1 hx
    simp only [List.mem_cons, List.not_mem_nil, or_false] at h2
    rcases h2 with rfl | rfl
    · exact (hL e h1).1
    · exact (hL e h1).2
  refine ⟨?_, ?_, ?_⟩
  · rw [List.mem_append]
    rintro (h | h)
    · simp only [List.mem_cons, List.not_mem_nil, or_false] at h
      rcases h with h | h | h
      · exact absurd h (by decide)
      · exact absolute_ne_dashes hG h.symm
      · exact absurd h (by decide)
    · exact absolute_ne_dashes (hm _ h) rfl
  · refine if_pos ⟨rfl, rfl, by rw [absolute_no_dash hG]; rfl, ?_⟩
    refine List.all_eq_true.2 ?_
    intro x hx
    rw [absolute_no_dash (hm x hx)]
    rfl
  · have hl : ∀ qs : List (Str × Str), (qs.flatMap (fun e => [e.1, e.2])).length = 2 * qs.length := by
      intro qs
      induction qs with
      | nil => rfl
      | cons e qs ih =>
        rw [List.flatMap_cons, List.length_append, ih]
        simp only [List.length_cons, List.length_nil]
        omega
    unfold Rt.cliParams
    split
    · rename_i p hp
      have := congrArg List.length hp
      rw [hl] at this
      simp at this
      omega
    · rw [if_neg (by rw [hl]; omega)]
      refine cliLoop_good L ?_ []
      intro e he
      obtain ⟨t, ht⟩ := (hL e he).1
      rw [ht]
      rfl

theorem callParams_abs {F C : Str} {P S : Option Str} (hF : Absolute F) (hC : Absolute C)
    (hP : ∀ s, P = some s → Absolute s) (hS : ∀ s, S = some s → Absolute s) :
    ∀ e ∈ callParams F C P S, Absolute e.1 ∧ Absolute e.2 := by
  intro e he
  unfold callParams at he
  simp only [List.mem_append, List.mem_cons, List.not_mem_nil, or_false, Option.mem_toList, Option.mem_def,
    Option.map_eq_some_iff] at he
  rcases he with ((rfl | rfl) | ⟨s, h, rfl⟩) | ⟨s, h, rfl⟩
  · exact ⟨⟨_, rfl⟩, hF⟩
  · exact ⟨⟨_, rfl⟩, hC⟩
  · exact ⟨⟨_, rfl⟩, hP s h⟩
  · exact ⟨⟨_, rfl⟩, hS s h⟩

theorem callParams_fold (F C : Str) (P S : Option Str) :
    (callParams F C P S).foldl (fun d e => Dict.set e.1 e.2 d) [] = callParams F C P S := by
  cases P <;> cases S <;> rfl

theorem cliArgs_flat (G F C : Str) (P S : Option Str) :
    cliArgs G F C P ++ (match S with
             | some s => ["/enter/call_graph._start".toList, s]
             | none => []) =
      ["exec".toList, G, "-p".toList] ++ (callParams F C P S).flatMap (fun e => [e.1, e.2]) := by
  cases P <;> cases S <;> rfl

end ContextLemmas

open ContextLemmas

/-! ## C121 -/

/-- C121: a name is looked up among the registered contexts; it is known just if it is one of their
names, and gives the first context registered with it. -/
theorem C121_find (cs : List Context) (name : Str) :
    (find name cs = none ↔ name ∉ names cs) ∧ ∀ c, find name cs = some c ↔ FirstNamed cs name c :=
  ⟨find_none, fun _ => find_some⟩

/-- C121: a context registered under a new name is found by it, and no other name gives anything else than
before. -/
theorem C121_register (cs : List Context) (c : Context) :
    (c.name ∉ names cs → find c.name (register c cs) = some c) ∧
      ∀ n, n ≠ c.name → find n (register c cs) = find n cs := by
  constructor
  · intro h
    unfold register
    rw [find_append, find_none.2 h]
    simp [find]
  · intro n hn
    unfold register
    rw [find_append]
    simp [find, Ne.symm hn]

/-- C121, violated: a context registered under a name already taken is never found. -/
theorem C121_shadowed_violation (cs : List Context) (c : Context) (h : c.name ∈ names cs) :
    find c.name (register c cs) = find c.name cs := by
  unfold register
  rw [find_append]
  cases hf : find c.name cs with
  | none => exact absurd h (find_none.1 hf)
  | some d => rfl

/-- C121: a call of a context without arguments of its own runs the context's graph, with the parameters
naming the graph file, the cache file, the parameters file if there are parameters, and the start node if
one is given. -/
theorem C121_call (vars : Str → Str) (cs : List Context) (root script tempCache tempParams filepath : Str)
    (start cache : Option Str) (hasParams : Bool) (name : Str) (c : Context)
    (hc : FirstNamed cs name c) (he : c.exe ≠ []) (hu : contains c.exe "UE4Editor".toList = false)
    (ha : c.args = []) (hroot : Absolute root) (htc : Absolute tempCache) (htp : Absolute tempParams)
    (hs : script ≠ "--".toList) (hst : ∀ s, start = some s → Absolute s) (hca : ∀ p, cache = some p → Absolute p) :
    ∃ cli ps, execInHeadless vars cs root script tempCache tempParams filepath start cache hasParams name =
        .ok (.list (c.exe :: script :: cli), cache.getD tempCache) ∧
      parseExec (mainArgs (script :: cli)) = some (expand vars root c.graph, ps) ∧
      Rt.cliParams ps = .params (callParams (expand vars root filepath) (cache.getD tempCache)
        (if hasParams then some tempParams else none) start) := by
  have hg := expand_absolute (vars := vars) (p := c.graph) hroot
  have hf := expand_absolute (vars := vars) (p := filepath) hroot
  have hcabs : Absolute (cache.getD tempCache) := by
    cases cache with
    | none => exact htc
    | some p => exact hca p rfl
  have hP : ∀ s, (if hasParams then some tempParams else none) = some s → Absolute s := by
    intro s hs
    split at hs
    · cases hs; exact htp
    · cases hs
  obtain ⟨h1, h2, h3⟩ := parse_pairs (callParams_abs hf hcabs hP hst) hg
  refine ⟨["exec".toList, expand vars root c.graph, "-p".toList] ++
      (callParams (expand vars root filepath) (cache.getD tempCache)
        (if hasParams then some tempParams else none) start).flatMap (fun e => [e.1, e.2]),
    (callParams (expand vars root filepath) (cache.getD tempCache)
        (if hasParams then some tempParams else none) start).flatMap (fun e => [e.1, e.2]), ?_, ?_, ?_⟩
  rotate_left
  · rw [mainArgs_plain hs h1]
    exact h2
  · rw [h3, callParams_fold]
  · unfold execInHeadless
    rw [find_some.2 hc]
    simp only [truthy_abs hst, truthy_abs hca, if_neg he, if_neg (absolute_ne_nil hg), hu, ha]
    rw [← cliArgs_flat]
    rfl

/-- C121: a call of a context with arguments of its own hands them over before the script, and the graph is
run with the same parameters, if the program it calls hands on its arguments; but without the start node. -/
theorem C121_call_args_partial (vars : Str → Str) (cs : List Context)
    (root script tempCache tempParams filepath : Str)
    (start cache : Option Str) (hasParams : Bool) (name : Str) (c : Context)
    (hc : FirstNamed cs name c) (he : c.exe ≠ []) (hu : contains c.exe "UE4Editor".toList = false)
    (ha : c.args ≠ []) (hroot : Absolute root) (htc : Absolute tempCache) (htp : Absolute tempParams)
    (hca : ∀ p, cache = some p → Absolute p) :
    ∃ cli ps, execInHeadless vars cs root script tempCache tempParams filepath start cache hasParams name =
        .ok (.list (c.exe :: c.args ++ script :: "--".toList :: cli), cache.getD tempCache) ∧
      (∀ pre, "--".toList ∉ pre →
        parseExec (mainArgs (pre ++ "--".toList :: cli)) = some (expand vars root c.graph, ps)) ∧
      Rt.cliParams ps = .params (callParams (expand vars root filepath) (cache.getD tempCache)
        (if hasParams then some tempParams else none) none) := by
  have hg := expand_absolute (vars := vars) (p := c.graph) hroot
  have hf := expand_absolute (vars := vars) (p := filepath) hroot
  have hcabs : Absolute (cache.getD tempCache) := by
    cases cache with
    | none => exact htc
    | some p => exact hca p rfl
  have hP : ∀ s, (if hasParams then some tempParams else none) = some s → Absolute s := by
    intro s hs
    split at hs
    · cases hs; exact htp
    · cases hs
  obtain ⟨h1, h2, h3⟩ := parse_pairs (callParams_abs hf hcabs hP (S := none) (by simp)) hg
  refine ⟨["exec".toList, expand vars root c.graph, "-p".toList] ++
      (callParams (expand vars root filepath) (cache.getD tempCache)
        (if hasParams then some tempParams else none) none).flatMap (fun e => [e.1, e.2]),
    (callParams (expand vars root filepath) (cache.getD tempCache)
        (if hasParams then some tempParams else none) none).flatMap (fun e => [e.1, e.2]), ?_, ?_, ?_⟩
  rotate_left
  · intro pre hpre
    rw [mainArgs_dashes hpre]
    exact h2
  · rw [h3, callParams_fold]
  · unfold execInHeadless
    rw [find_some.2 hc]
    simp only [truthy_abs hca, if_neg he, if_neg (absolute_ne_nil hg), hu, if_pos ha]
    rw [← cliArgs_flat]
    simp

/-- C121: a context which is not known, or has no exe, is refused. -/
theorem C121_refused (vars : Str → Str) (cs : List Context) (root script tempCache tempParams filepath : Str)
    (start cache : Option Str) (hasParams : Bool) (name : Str) :
    (name ∉ names cs →
      execInHeadless vars cs root script tempCache tempParams filepath start cache hasParams name = .error .name) ∧
    (∀ c, FirstNamed cs name c → c.exe = [] →
      execInHeadless vars cs root script tempCache tempParams filepath start cache hasParams name = .error .type) := by
  constructor
  · intro h
    unfold execInHeadless
    rw [find_none.2 h]
  · intro c hc he
    unfold execInHeadless
    rw [find_some.2 hc]
    exact if_pos he

/-- C121, violated: a context with arguments of its own (and one of the Unreal editor) ignores the start
node. -/
theorem C121_start_violation (vars : Str → Str) (cs : List Context)
    (root script tempCache tempParams filepath : Str) (start start' cache : Option Str) (hasParams : Bool) (name : Str)
    (c : Context) (hc : FirstNamed cs name c)
    (h : c.args ≠ [] ∨ contains c.exe "UE4Editor".toList = true) :
    execInHeadless vars cs root script tempCache tempParams filepath start cache hasParams name =
      execInHeadless vars cs root script tempCache tempParams filepath start' cache hasParams name := by
  unfold execInHeadless
  rw [find_some.2 hc]
  rcases h with h | h
  · simp only [if_pos h]
  · simp only [if_pos h]

/-- C121, violated: a relative path is looked for in the directory of the server, not in that of the
caller. -/
theorem C121_relative_violation (vars : Str → Str) (root cwd filepath : Str) (h : ¬ Absolute (vars filepath))
    (hd : root ≠ cwd) : expand vars root filepath ≠ expand vars cwd filepath := by
  unfold expand
  have : ¬ startsWith (vars filepath) ['/'] = true := fun h' => h (startsWith_slash.1 h')
  rw [if_neg this, if_neg this]
  intro he
  exact hd (List.append_cancel_right he)

/-- C121: an empty start node or cache path counts as none. -/
theorem C121_empty (vars : Str → Str) (cs : List Context) (root script tempCache tempParams filepath : Str)
    (start cache : Option Str) (hasParams : Bool) (name : Str) :
    execInHeadless vars cs root script tempCache tempParams filepath (some []) cache hasParams name =
      execInHeadless vars cs root script tempCache tempParams filepath none cache hasParams name ∧
    execInHeadless vars cs root script tempCache tempParams filepath start (some []) hasParams name =
      execInHeadless vars cs root script tempCache tempParams filepath start none hasParams name :=
  ⟨rfl, rfl⟩

/-! ### Making contexts -/

/-- C121: a context made without a graph is registered with a graph file of its own, an absolute path, and
is found by its name if that is not taken; making it again is refused. -/
theorem C121_create (vars : Str → Str) (dir cwd : Str) (files : List Str) (cs : List Context) (name exe : Str)
    (args : List Str) (hn : name ≠ []) (hf : dir ++ "/custom_".toList ++ name ++ "_context.py".toList ∉ files) :
    ∃ files', createContext vars dir cwd files cs name exe none args =
        .ok (register ⟨name, exe, dir ++ "/custom_".toList ++ name ++ "_context.nxt".toList, args⟩ cs, files') ∧
      (∀ f ∈ files, f ∈ files') ∧
      ∀ cs' cwd' exe' graph' args',
        createContext vars dir cwd' files' cs' name exe' graph' args' = .error .io := by
  have e : ∀ ext : Str, custom dir name ext = dir ++ "/custom_".toList ++ name ++ ("_context".toList ++ ext) := by
    intro ext
    unfold custom
    simp
  have e1 : custom dir name ".py".toList = dir ++ "/custom_".toList ++ name ++ "_context.py".toList := e _
  have e2 : custom dir name ".nxt".toList = dir ++ "/custom_".toList ++ name ++ "_context.nxt".toList := e _
  refine ⟨files ++ [custom dir name ".nxt".toList, custom dir name ".py".toList], ?_, by simp +contextual, ?_⟩
  · unfold createContext
    rw [← e2, if_neg hn]
    dsimp only
    rw [if_neg (by rw [e1]; exact hf)]
  · intro cs' cwd' exe' graph' args'
    unfold createContext
    rw [if_neg hn]
    dsimp only
    rw [if_pos (by simp)]

/-- C121: no name, or a graph which is not there, is refused. -/
theorem C121_create_refused (vars : Str → Str) (dir cwd : Str) (files : List Str) (cs : List Context)
    (name exe : Str) (graph : Option Str) (args : List Str) :
    createContext vars dir cwd files cs [] exe graph args = .error .name ∧
    ∀ g, expand vars cwd g ∉ files → name ≠ [] →
      createContext vars dir cwd files cs name exe (some g) args = .error .io := by
  refine ⟨rfl, ?_⟩
  intro g hg hn
  unfold createContext
  rw [if_neg hn]
  dsimp only
  split <;> first | rfl | exact if_pos hg

theorem relpath_relative (g root : Str) : ¬ Absolute (relpath g root) := by
  unfold relpath
  dsimp only
  generalize (commonPrefix (comps g) (comps root)).length = i
  have hall : ∀ x ∈ List.replicate ((comps root).length - i) "..".toList ++ (comps g).drop i, x ≠ [] ∧ '/' ∉ x := by
    intro x hx
    rcases List.mem_append.1 hx with hx | hx
    · rw [(List.mem_replicate.1 hx).2]
      exact ⟨by decide, by decide⟩
    · have := List.mem_of_mem_drop hx
      unfold comps at this
      obtain ⟨h1, h2⟩ := List.mem_filter.1 this
      exact ⟨by simpa using h2, not_mem_of_mem_split h1⟩
  generalize List.replicate ((comps root).length - i) "..".toList ++ (comps g).drop i = l at hall
  split
  · rintro ⟨t, ht⟩; cases ht
  · rename_i hl
    rintro ⟨t, ht⟩
    cases l with
    | nil => exact hl rfl
    | cons x l =>
      obtain ⟨h1, h2⟩ := hall x (by simp)
      cases x with
      | nil => exact h1 rfl
      | cons a x =>
        cases l with
        | nil => simp only [join] at ht; cases ht; exact h2 (by simp)
        | cons y l => simp only [join, List.cons_append] at ht; cases ht; exact h2 (by simp)

namespace ContextLemmas

theorem commonPrefix_spec {α : Type} [DecidableEq α] (a b : List α) :
    ∃ a' b', a = commonPrefix a b ++ a' ∧ b = commonPrefix a b ++ b' := by
  induction a generalizing b with
  | nil => exact ⟨[], b, by simp [commonPrefix], by simp [commonPrefix]⟩
  | cons x a ih =>
    cases b with
    | nil => exact ⟨x :: a, [], rfl, rfl⟩
    | cons y b =>
      rw [commonPrefix]
      by_cases h : x = y
      · subst h
        rw [if_pos rfl]
        obtain ⟨a', b', h1, h2⟩ := ih b
        refine ⟨a', b', ?_, ?_⟩
        · rw [List.cons_append, ← h1]
        · rw [List.cons_append, ← h2]
      · rw [if_neg h]
        exact ⟨x :: a, y :: b, rfl, rfl⟩

theorem follow_up (d s : List Str) : follow (d ++ s) (List.replicate s.length "..".toList) = d := by
  unfold follow
  generalize hn : s.length = n
  induction n generalizing s with
  | zero => rw [List.length_eq_zero_iff.1 hn]; simp
  | succ n ih =>
    rcases List.eq_nil_or_concat s with rfl | ⟨s, x, rfl⟩
    · cases hn
    · rw [List.concat_eq_append] at hn ⊢
      rw [List.replicate_succ, List.foldl_cons, if_pos rfl, ← List.append_assoc, List.dropLast_concat]
      exact ih s (by simpa using hn)

theorem follow_down (d p : List Str) (h1 : "..".toList ∉ p) (h2 : ".".toList ∉ p) : follow d p = d ++ p := by
  unfold follow
  induction p generalizing d with
  | nil => simp
  | cons x p ih =>
    rw [List.foldl_cons, if_neg (fun h => h1 (by simp [← h])), if_neg (fun h => h2 (by simp [← h])),
      ih _ (fun h => h1 (List.mem_cons_of_mem _ h)) (fun h => h2 (List.mem_cons_of_mem _ h))]
    simp

end ContextLemmas

/-- C121: a relative path leads from its start to the path it was made of. -/
theorem C121_relpath (path start : Str) (h1 : "..".toList ∉ comps path) (h2 : ".".toList ∉ comps path) :
    follow (comps start) (split '/' (relpath path start)) = comps path := by
  obtain ⟨p, s, hp, hs⟩ := commonPrefix_spec (comps path) (comps start)
  have hno : ∀ x ∈ comps path, '/' ∉ x := fun x hx => not_mem_of_mem_split (List.mem_filter.1 hx).1
  unfold relpath
  dsimp only
  generalize commonPrefix (comps path) (comps start) = c at hp hs
  have hd : (comps path).drop c.length = p := by rw [hp, List.drop_left]
  have hl : (comps start).length - c.length = s.length := by rw [hs, List.length_append]; omega
  rw [hd, hl]
  split
  · rename_i he
    obtain ⟨e1, e2⟩ := List.append_eq_nil_iff.1 he
    have : s = [] := by
      cases s with
      | nil => rfl
      | cons x s => simp [List.replicate_succ] at e1
    rw [this, List.append_nil] at hs
    rw [e2, List.append_nil] at hp
    rw [hp, hs]
    rfl
  · rename_i hne
    rw [split_join hne]
    · unfold follow
      rw [List.foldl_append]
      have := follow_up c s
      unfold follow at this
      rw [hs, this]
      have := follow_down c p (fun h => h1 (by rw [hp]; exact List.mem_append_right _ h))
        (fun h => h2 (by rw [hp]; exact List.mem_append_right _ h))
      unfold follow at this
      rw [this, hp]
    · intro x hx
      rcases List.mem_append.1 hx with hx | hx
      · rw [(List.mem_replicate.1 hx).2]; decide
      · exact hno x (by rw [hp]; simp [hx])

/-- C121, violated: the absolute path of a graph given for a new context is made relative to a common
beginning of names; the server, which takes it from its own directory, finds another file, unless the graph
lies in that directory. -/
theorem C121_graph_violation (cwd dir root : Str) (files : List Str) (cs : List Context) (name exe g : Str)
    (args : List Str) (hn : name ≠ []) (hf : dir ++ "/custom_".toList ++ name ++ "_context.py".toList ∉ files)
    (hg : Absolute g) (hdir : Absolute dir) (hin : g ∈ files) (hout : ¬ ∃ t, g = root ++ '/' :: t) :
    ∃ c files', createContext id dir cwd files cs name exe (some g) args = .ok (register c cs, files') ∧
      c.name = name ∧ ¬ Absolute c.graph ∧ expand id root c.graph ≠ g := by
  have e1 : custom dir name ".py".toList = dir ++ "/custom_".toList ++ name ++ "_context.py".toList := by
    unfold custom
    simp
  have hroot : commonPrefix g (custom dir name ".py".toList) ≠ [] := by
    obtain ⟨t, rfl⟩ := hg
    obtain ⟨u, rfl⟩ := hdir
    simp [custom, commonPrefix]
  have hexp : expand id cwd g = g := if_pos (startsWith_slash.2 hg)
  refine ⟨⟨name, exe, relpath g (commonPrefix g (custom dir name ".py".toList)), args⟩,
    files ++ [custom dir name ".py".toList], ?_, rfl, relpath_relative _ _, ?_⟩
  · unfold createContext
    rw [if_neg hn]
    dsimp only
    rw [if_neg (by rw [e1]; exact hf), if_neg (by rw [hexp]; simpa using hin), if_pos hroot]
  · show (if startsWith (relpath g (commonPrefix g (custom dir name ".py".toList))) ['/'] = true then _ else _) ≠ g
    rw [if_neg (fun h => relpath_relative _ _ (startsWith_slash.1 h))]
    intro he
    exact hout ⟨_, he.symm⟩

/-- A graph beside the plugins. -/
example : createContext id "/u/nxt/plugins".toList "/tmp".toList ["/u/nxt/c.nxt".toList] (builtin "py".toList) "maya".toList
      "mayapy".toList (some "/u/nxt/c.nxt".toList) [] =
    .ok (register ⟨"maya".toList, "mayapy".toList, "c.nxt".toList, []⟩ (builtin "py".toList),
      ["/u/nxt/c.nxt".toList, "/u/nxt/plugins/custom_maya_context.py".toList]) := by rfl

/-- The common beginning need not end at a component. -/
example : relpath "/u/plugged/c.nxt".toList (commonPrefix "/u/plugged/c.nxt".toList "/u/plug/x.py".toList) =
    "../plugged/c.nxt".toList := by decide +kernel

/-- A call of the built-in context. -/
example : ∃ c, FirstNamed (builtin "py".toList) "python".toList c ∧ c.exe ≠ [] ∧ c.args = [] ∧
    contains c.exe "UE4Editor".toList = false ∧
    execInHeadless id (builtin "py".toList) "/nxt".toList "/nxt/cli.py".toList "/tmp/a".toList "/tmp/b".toList
      "/g.nxt".toList (some "/n".toList) none true "python".toList =
    .ok (.list ["py".toList, "/nxt/cli.py".toList, "exec".toList, "/nxt/$NXT_BUILTINS/_context.nxt".toList, "-p".toList,
      "/.graph_file".toList, "/g.nxt".toList, "/.cache_file".toList, "/tmp/a".toList,
      "/.parameters_file".toList, "/tmp/b".toList, "/enter/call_graph._start".toList, "/n".toList], "/tmp/a".toList) :=
  ⟨_, find_some.1 rfl, by decide, by decide, by decide +kernel, by rfl⟩

/-- A second context named `python` can be made but is not found. -/
example : ∃ cs files, createContext id "/p".toList "/".toList [] (builtin "py".toList) "python".toList "mayapy".toList
      none [] = .ok (cs, files) ∧ names cs = ["python".toList, "python".toList] ∧
      (find "python".toList cs).map (·.exe) = some "py".toList :=
  ⟨_, _, rfl, by decide +kernel, by decide +kernel⟩

/-! ## C122 -/

namespace ContextLemmas

theorem readlines_line {l s : Str} (h : '\n' ∉ l) : readlines (l ++ '\n' :: s) = (l ++ ['\n']) :: readlines s := by
  induction l with
  | nil => simp [readlines]
  | cons c l ih =>
    rw [List.cons_append, readlines, if_neg (fun he => h (by simp [he])), ih (fun hm => h (by simp [hm]))]
    rfl

theorem readlines_last {l : Str} (h : '\n' ∉ l) (hn : l ≠ []) : readlines l = [l] := by
  induction l with
  | nil => exact absurd rfl hn
  | cons c l ih =>
    rw [readlines, if_neg (fun he => h (by simp [he]))]
    cases l with
    | nil => rfl
    | cons d l =>
      rw [ih (fun hm => h (by simp [hm])) (by simp)]

theorem decimal_dec (n : Nat) : Decimal (Names.dec n) n := by
  induction n using Nat.strongRecOn with
  | ind n ih =>
    have hd : ∀ k < 10, ('0' ≤ Names.digitChar k ∧ Names.digitChar k ≤ '9') ∧ (Names.digitChar k).toNat - '0'.toNat = k := by
      decide
    rw [Names.dec]
    split
    · rename_i h
      have := Decimal.one (Names.digitChar n) (hd n h).1
      rwa [(hd n h).2] at this
    · rename_i h
      have h2 := hd (n % 10) (by omega)
      have := Decimal.snoc _ _ (Names.digitChar (n % 10)) h2.1 (ih (n / 10) (by omega))
      rw [h2.2] at this
      rwa [show 10 * (n / 10) + n % 10 = n by omega] at this

theorem address_lines {host port : Str} {n : Nat} (hh : '\n' ∉ host) (hp : Decimal port n) :
    serverAddress (some (host ++ '\n' :: port)) = some ("localhost".toList, (n : Int)) := by
  obtain ⟨h1, h2⟩ := Version.decimal_digits hp
  have hn : '\n' ∉ port := fun hm => absurd (h2 _ hm) (by decide)
  unfold serverAddress
  dsimp only
  rw [readlines_line hh, readlines_last hn h1]
  show (Version.parseInt port).map _ = _
  rw [Version.parseInt_decimal hp]
  rfl

end ContextLemmas

/-- C122: clients read the very port the server has written. -/
theorem C122_address (port : Nat) :
    serverAddress (some (addressFile port)) = some ("localhost".toList, (port : Int)) := by
  rw [show addressFile port = "localhost".toList ++ '\n' :: Names.dec port from by
    unfold addressFile; rw [List.append_assoc]; rfl]
  exact address_lines (by decide) (decimal_dec port)

/-- C122: without a file, or with one of another number of lines, the default address is given; in particular
while the server has only just opened the file for writing. -/
theorem C122_default (s : Str) (h : (readlines s).length ≠ 2) :
    serverAddress none = some ("localhost".toList, 8001) ∧
      serverAddress (some s) = some ("localhost".toList, 8001) := by
  refine ⟨rfl, ?_⟩
  unfold serverAddress
  dsimp only
  split
  · rename_i heq; rw [heq] at h; exact absurd rfl h
  · rfl

example : (readlines []).length ≠ 2 ∧ (readlines "localhost\n".toList).length ≠ 2 ∧
    (readlines "localhost\n80\n\n".toList).length ≠ 2 := by decide

/-- C122, violated: the host in the file is not read. -/
theorem C122_host_violation (host port : Str) (n : Nat) (hh : '\n' ∉ host) (hp : Decimal port n) :
    serverAddress (some (host ++ '\n' :: port)) = some ("localhost".toList, (n : Int)) :=
  address_lines hh hp

example : serverAddress (some "farm7\n9000".toList) = some ("localhost".toList, 9000) := by decide +kernel

end Nxt.Props
