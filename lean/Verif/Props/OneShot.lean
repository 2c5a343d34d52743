import Verif.Model.OneShot
import Verif.Props.Contexts
/-!
# C161: running a graph without a session
-/
namespace Nxt.Props
open Spec Contexts OneShot ContextLemmas

/-- C161: a call is refused at once just if it names a context which is not registered; without a context the graph is
run in this interpreter, and in no other case. -/
theorem C161_refused (mine : List Context) (answer : Str → Except Err (Call × Str)) (context : Option Str) :
    (executeGraph mine answer context = .refused ↔ ∃ c, context = some c ∧ c ≠ [] ∧ ∀ k ∈ mine, k.name ≠ c) ∧
    (executeGraph mine answer context = .here ↔ context = none) := by
  have hn : ∀ c, c ∉ names mine ↔ ∀ k ∈ mine, k.name ≠ c := by
    intro c
    simp [names]
  cases context with
  | none => simp [executeGraph, truthy, session]
  | some c =>
    by_cases hc : c = []
    · subst hc
      unfold executeGraph
      rw [show truthy (some []) = none from rfl]
      simp [session]
    · have : truthy (some c) = some c := by simp [truthy, hc]
      unfold executeGraph
      rw [this]
      dsimp only
      by_cases hm : c ∈ names mine
      · rw [if_neg (not_not_intro hm)]
        simp only [session, reduceCtorEq, false_iff, not_exists, not_and, Option.some.injEq]
        exact ⟨fun c' e _ h => (hn c').2 h (e ▸ hm), trivial⟩
      · rw [if_pos hm]
        simp only [true_iff, Option.some.injEq, reduceCtorEq, and_true]
        exact ⟨c, rfl, hc, (hn c).1 hm⟩

/-- C161, in part: when every context of this process is one of the server too, with a program, the server runs what is
not refused: its answer is a call of the first context of its own with that name. -/
theorem C161_served_partial (vars : Str → Str) (mine server : List Context) (root script tempCache tempParams filepath : Str)
    (start cache : Option Str) (hasParams : Bool) (c : Str) (hc : c ≠ []) (hroot : Absolute root) (hm : ∃ k ∈ mine, k.name = c)
    (hs : ∀ k ∈ mine, k ∈ server) (he : ∀ k ∈ server, k.exe ≠ []) :
    ∃ call path, executeGraph mine
      (execInHeadless vars server root script tempCache tempParams filepath start cache hasParams) (some c)
        = .served (.ok (call, path)) := by
  have ht : truthy (some c) = some c := by simp [truthy, hc]
  obtain ⟨k, hk, hkc⟩ := hm
  have h1 : c ∈ names mine := List.mem_map.mpr ⟨k, hk, hkc⟩
  unfold executeGraph
  rw [ht]
  dsimp only
  rw [if_neg (not_not_intro h1), session]
  unfold execInHeadless
  cases hf : find c server with
  | none => exact absurd (List.mem_map.mpr ⟨k, hs k hk, hkc⟩) (find_none.1 hf)
  | some k' =>
    have hk' : k' ∈ server := by
      obtain ⟨a, b, e, -⟩ := find_some.1 hf
      rw [e]
      simp
    dsimp only
    rw [if_neg (he k' hk'), if_neg (absolute_ne_nil (expand_absolute hroot))]
    split <;> exact ⟨_, _, rfl⟩

/-- The contexts there are at first. -/
example : ∃ call path, executeGraph (builtin "/py".toList)
    (execInHeadless id (builtin "/py".toList) "/r".toList "s".toList "/c".toList "/p".toList "/g.nxt".toList none none false)
      (some "python".toList) = .served (.ok (call, path)) :=
  C161_served_partial _ _ _ _ _ _ _ _ _ _ _ _ (by decide) ⟨"r".toList, rfl⟩ ⟨_, List.mem_singleton.mpr rfl, rfl⟩ (fun _ h => h)
    (by decide)

/-- C161, violated: a context registered in this process only, as user code calling `register_context` does, passes; a
server is started and refuses it. -/
theorem C161_unshared_violation (vars : Str → Str) (mine server : List Context)
    (root script tempCache tempParams filepath : Str) (start cache : Option Str) (hasParams : Bool) (k : Context)
    (hk : k.name ≠ []) (hs : ∀ x ∈ server, x.name ≠ k.name) :
    executeGraph (register k mine)
      (execInHeadless vars server root script tempCache tempParams filepath start cache hasParams) (some k.name)
        = .served (.error .name) := by
  have ht : truthy (some k.name) = some k.name := by simp [truthy, hk]
  unfold executeGraph
  rw [ht]
  dsimp only
  rw [if_neg (by simp [names, register]), session,
    (C121_refused vars server root script tempCache tempParams filepath start cache hasParams k.name).1 (by simpa [names] using hs)]

/-- Such a context. -/
example : executeGraph (register ⟨"houdini".toList, "/hython".toList, "/h.nxt".toList, []⟩ (builtin "/py".toList))
    (execInHeadless id (builtin "/py".toList) "/r".toList "s".toList "/c".toList "/p".toList "/g.nxt".toList none none false)
      (some "houdini".toList) = .served (.error .name) :=
  C161_unshared_violation _ _ _ _ _ _ _ _ _ _ _ _ (by decide) (by decide)

/-- C161, violated: an empty context name is not refused, though no context has it, and is not taken for no context
either: a server is started to refuse it. -/
theorem C161_empty_violation (vars : Str → Str) (mine server : List Context)
    (root script tempCache tempParams filepath : Str) (start cache : Option Str) (hasParams : Bool)
    (hs : ∀ x ∈ server, x.name ≠ []) :
    executeGraph mine
      (execInHeadless vars server root script tempCache tempParams filepath start cache hasParams) (some [])
        = .served (.error .name) := by
  unfold executeGraph
  rw [show truthy (some []) = none from rfl]
  dsimp only
  rw [session,
    (C121_refused vars server root script tempCache tempParams filepath start cache hasParams []).1 (by simpa [names] using hs)]

/-- The contexts there are at first. -/
example : ∀ x ∈ builtin "/py".toList, x.name ≠ [] := by decide

end Nxt.Props
