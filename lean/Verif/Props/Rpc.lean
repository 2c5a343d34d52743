import Verif.Spec.Rpc
/-!
# Property C120: the rpc server around an execution
-/
namespace Nxt.Props
open Spec Rpc

namespace RpcLemmas

theorem needed_iff (layers : List (List Str)) : needed layers = true ↔
    ∃ l ∈ layers, "/_remote_sub_graph".toList ∈ l ∨ "/_sub_graph".toList ∈ l := by
  unfold needed
  rw [List.any_eq_true]
  constructor
  · rintro ⟨l, h1, h2⟩
    exact ⟨l, h1, by simpa only [Bool.or_eq_true, decide_eq_true_eq] using h2⟩
  · rintro ⟨l, h1, h2⟩
    exact ⟨l, h1, by simpa only [Bool.or_eq_true, decide_eq_true_eq] using h2⟩

/-- What an execution does first. -/
def begin (j : Job) (delay : Option Nat) (s : St) : Bool × St :=
  match j with
  | .remote _ => startServer false delay s
  | .graph layers _ | .nodes layers _ _ => startIfNeeded layers delay s

theorem begin_asks {j : Job} (h : AsksServer j) (delay : Option Nat) (s : St) :
    begin j delay s = startServer false delay s := by
  cases j with
  | remote f => rfl
  | graph l f => exact if_pos ((needed_iff l).2 h)
  | nodes l b f => exact if_pos ((needed_iff l).2 h)

theorem begin_not {j : Job} (h : ¬ AsksServer j) (delay : Option Nat) (s : St) :
    begin j delay s = (true, s) := by
  cases j with
  | remote f => exact absurd trivial h
  | graph l f => exact if_neg (fun h' => h ((needed_iff l).1 h'))
  | nodes l b f => exact if_neg (fun h' => h ((needed_iff l).1 h'))

theorem execute_started {j : Job} (hb : Builds j) {delay : Option Nat} {s s' : St}
    (h : begin j delay s = (true, s')) : execute delay s j = (⟨JobFails j, some s'.world.server⟩, shutdown s') := by
  cases j with
  | remote f => simp only [begin] at h; simp only [execute, h]; rfl
  | graph l f => simp only [begin] at h; simp only [execute, h]; rfl
  | nodes l b f =>
    simp only [begin] at h
    simp only [execute, h]
    cases (hb : b = false)
    rfl

theorem execute_refused {j : Job} {delay : Option Nat} {s s' : St}
    (h : begin j delay s = (false, s')) : execute delay s j = (⟨true, none⟩, s') := by
  cases j with
  | remote f => simp only [begin] at h; simp only [execute, h]
  | graph l f => simp only [begin] at h; simp only [execute, h]
  | nodes l b f => simp only [begin] at h; simp only [execute, h]

/-- The loop ends at the first check answered. -/
theorem waiting_some (d left c : Nat) : waiting (some d) left c = min (max d (c + 1)) (c + left) ∨ left = 0 := by
  induction left generalizing c with
  | zero => exact .inr rfl
  | succ n ih =>
    left
    rw [waiting]
    by_cases h : d ≤ c + 1
    · rw [if_pos (by simpa [answers] using h)]
      omega
    · rw [if_neg (by simpa [answers] using h)]
      rcases ih (c + 1) with h1 | h1
      · rw [h1]; omega
      · subst h1; simp only [waiting]; omega

theorem waiting_none (left c : Nat) : waiting none left c = c + left := by
  induction left generalizing c with
  | zero => rfl
  | succ n ih =>
    rw [waiting, if_neg (by simp [answers]), ih]
    omega

theorem wait_some (d : Nat) : waiting (some d) STARTUP_TIMEOUT 0 = min (max d 1) 5 := by
  rcases waiting_some d 5 0 with h | h
  · simpa [STARTUP_TIMEOUT] using h
  · cases h

/-- A server is started. -/
theorem run_starts {w : World} (hs : w.server = none) (hf : w.foreign = false) {delay : Option Nat}
    (hd : Prompt delay) : Rpc.run false delay w =
      (some true, { w with server := some w.nextPid, procs := w.procs ++ [w.nextPid], nextPid := w.nextPid + 1 }) := by
  obtain ⟨d, rfl, hd⟩ := hd
  unfold Rpc.run
  rw [if_neg (by simp [isRunning, hs]), if_neg (by simp [isPortAvailable, hs, hf])]
  simp only [Bool.false_eq_true, if_false]
  rw [wait_some, if_pos (by simp only [answers, decide_eq_true_eq]; omega : answers (some d) (min (max d 1) 5) = true),
      if_neg (by simp only [STARTUP_TIMEOUT]; omega : ¬ min (max d 1) 5 = STARTUP_TIMEOUT)]
  cases w with
  | mk a b c d e v => cases v <;> rfl

theorem startServer_starts {s : St} (hst : s.world.standalone = true) (hs : s.world.server = none)
    (hf : s.world.foreign = false) {delay : Option Nat} (hd : Prompt delay) :
    startServer false delay s = (true,
      { world := { s.world with server := some s.world.nextPid, procs := s.world.procs ++ [s.world.nextPid],
                                nextPid := s.world.nextPid + 1 },
        handle := some s.world.nextPid }) := by
  simp only [startServer, start, hst, run_starts hs hf hd]
  rfl

theorem startServer_running {s : St} {p : Nat} (hs : s.world.server = some p) (b : Bool) (delay : Option Nat) :
    startServer b delay s = (true, { s with handle := none }) := by
  unfold startServer start Rpc.run
  rw [if_pos (by simp [isRunning, hs] : isRunning s.world = true)]
  cases h : s.world.standalone <;> rfl

theorem startServer_embedded {s : St} (hst : s.world.standalone = false) (b : Bool) (delay : Option Nat) :
    startServer b delay s = (true, { s with handle := none }) := by
  simp only [startServer, start, hst]
  rfl

theorem startServer_foreign {s : St} (hst : s.world.standalone = true) (hs : s.world.server = none)
    (hf : s.world.foreign = true) (b : Bool) (delay : Option Nat) : startServer b delay s = (false, s) := by
  unfold startServer start Rpc.run
  rw [if_neg (by simp [isRunning, hs] : ¬ isRunning s.world = true),
    if_pos (by simp [isPortAvailable, hf] : (!isPortAvailable s.world) = true)]
  simp only [hst]
  rfl

theorem erase_last {l : List Nat} {p : Nat} (h : p ∉ l) : (l ++ [p]).erase p = l := by
  rw [List.erase_append_right _ h]
  simp

end RpcLemmas

open RpcLemmas

/-- C120: an execution which asks for a server, where none is running, starts one, has it while the
graph runs, and stops it, also if the graph raises. -/
theorem C120_started (s : St) (j : Job) (delay : Option Nat) (hj : AsksServer j) (hb : Builds j)
    (hn : Numbered s.world) (hst : s.world.standalone = true) (hs : s.world.server = none)
    (hf : s.world.foreign = false) (hd : Prompt delay) :
    (execute delay s j).1 = ⟨JobFails j, some (some s.world.nextPid)⟩ ∧
      SameWorld s.world (execute delay s j).2.world ∧ (execute delay s j).2.handle = none := by
  have h1 := begin_asks hj delay s
  rw [startServer_starts hst hs hf hd] at h1
  rw [execute_started hb h1]
  refine ⟨rfl, ⟨hs.symm, rfl, ?_, rfl, rfl⟩, rfl⟩
  exact erase_last (fun h => Nat.lt_irrefl _ (hn _ h))

/-- C120: a server which is running already is used and left running, whosever it is, if the session
holds none. -/
theorem C120_borrowed (s : St) (j : Job) (delay : Option Nat) (p : Nat) (hb : Builds j)
    (hs : s.world.server = some p) (hh : s.handle = none) :
    execute delay s j = (⟨JobFails j, some (some p)⟩, s) := by
  have : begin j delay s = (true, s) := by
    by_cases hj : AsksServer j
    · rw [begin_asks hj, startServer_running hs, ← hh]
    · exact begin_not hj _ _
  rw [execute_started hb this, hs]
  unfold shutdown
  rw [hh]

/-- C120: an execution which asks for no server starts none. -/
theorem C120_unneeded (s : St) (j : Job) (delay : Option Nat) (hb : Builds j) (hj : ¬ AsksServer j)
    (hh : s.handle = none) : execute delay s j = (⟨JobFails j, some s.world.server⟩, s) := by
  rw [execute_started hb (begin_not hj delay s)]
  unfold shutdown
  rw [hh]

/-- C120: inside another program no server is started; the graph runs nevertheless. -/
theorem C120_embedded (s : St) (j : Job) (delay : Option Nat) (hb : Builds j)
    (hst : s.world.standalone = false) (hh : s.handle = none) :
    execute delay s j = (⟨JobFails j, some s.world.server⟩, s) := by
  have : begin j delay s = (true, s) := by
    by_cases hj : AsksServer j
    · rw [begin_asks hj, startServer_embedded hst, ← hh]
    · exact begin_not hj _ _
  rw [execute_started hb this]
  unfold shutdown
  rw [hh]

/-- C120: where something else listens at the address, an execution asking for a server is refused and
changes nothing. -/
theorem C120_foreign (s : St) (j : Job) (delay : Option Nat) (hj : AsksServer j)
    (hst : s.world.standalone = true) (hs : s.world.server = none) (hf : s.world.foreign = true) :
    execute delay s j = (⟨true, none⟩, s) :=
  execute_refused ((begin_asks hj delay s).trans (startServer_foreign hst hs hf _ _))

/-- C120: any run of executions leaves the world as it found it: the same server running, the same
processes, the same environment.  Partial: servers come up within four seconds, stages are built, and
the session holds no server at first; each is needed (see the violations). -/
theorem C120_balanced_partial (jobs : List (Option Nat × Job)) (s : St) (hn : Numbered s.world)
    (hh : s.handle = none) (hd : ∀ dj ∈ jobs, Prompt dj.1) (hb : ∀ dj ∈ jobs, Builds dj.2) :
    SameWorld s.world (executeAll s jobs).2.world ∧ (executeAll s jobs).2.handle = none := by
  induction jobs generalizing s with
  | nil => exact ⟨⟨rfl, rfl, rfl, rfl, rfl⟩, hh⟩
  | cons dj jobs ih =>
    obtain ⟨d, j⟩ := dj
    have key : SameWorld s.world (execute d s j).2.world ∧ (execute d s j).2.handle = none ∧
        Numbered (execute d s j).2.world := by
      have hb0 := hb (d, j) (by simp)
      have hd0 := hd (d, j) (by simp)
      have same : ∀ o, execute d s j = (o, s) → SameWorld s.world (execute d s j).2.world ∧
          (execute d s j).2.handle = none ∧ Numbered (execute d s j).2.world := by
        intro o h
        rw [h]
        exact ⟨⟨rfl, rfl, rfl, rfl, rfl⟩, hh, hn⟩
      by_cases hj : AsksServer j
      · cases hst : s.world.standalone with
        | false => exact same _ (C120_embedded s j d hb0 hst hh)
        | true =>
          cases hs : s.world.server with
          | some p => exact same _ (C120_borrowed s j d p hb0 hs hh)
          | none =>
            cases hf : s.world.foreign with
            | true => exact same _ (C120_foreign s j d hj hst hs hf)
            | false =>
              have h := C120_started s j d hj hb0 hn hst hs hf hd0
              refine ⟨h.2.1, h.2.2, ?_⟩
              intro p hp
              rw [h.2.1.2.2.1] at hp
              have h1 := begin_asks hj d s
              rw [startServer_starts hst hs hf hd0] at h1
              rw [execute_started hb0 h1]
              exact Nat.lt_succ_of_lt (hn p hp)
      · exact same _ (C120_unneeded s j d hb0 hj hh)
    obtain ⟨h1, h2, h3⟩ := key
    obtain ⟨g1, g2⟩ := ih (execute d s j).2 h3 h2 (fun x hx => hd x (by simp [hx])) (fun x hx => hb x (by simp [hx]))
    refine ⟨⟨?_, ?_, ?_, ?_, ?_⟩, g2⟩
    · exact g1.1.trans h1.1
    · exact g1.2.1.trans h1.2.1
    · exact g1.2.2.1.trans h1.2.2.1
    · exact g1.2.2.2.1.trans h1.2.2.2.1
    · exact g1.2.2.2.2.trans h1.2.2.2.2

/-- C120: the port counts as available just if nothing listens there, neither a server nor anything
else. -/
theorem C120_port (w : World) : isPortAvailable w = true ↔ w.server = none ∧ w.foreign = false := by
  unfold isPortAvailable
  cases w.server <;> cases w.foreign <;> simp

/-! ## Violations -/

/-- C120, violated: a server which comes up at the fifth check is taken for one which failed: the
execution is refused and the server is left running, held by nobody. -/
theorem C120_late_violation (s : St) (j : Job) (hj : AsksServer j) (hst : s.world.standalone = true)
    (hs : s.world.server = none) (hf : s.world.foreign = false) :
    (execute (some 5) s j).1 = ⟨true, none⟩ ∧
      (execute (some 5) s j).2.world.server = some s.world.nextPid ∧
      (execute (some 5) s j).2.handle = s.handle := by
  have h : begin j (some 5) s = (false, { s with world :=
      { s.world with server := some s.world.nextPid, procs := s.world.procs ++ [s.world.nextPid], nextPid := s.world.nextPid + 1 } }) := by
    rw [begin_asks hj]
    unfold startServer start Rpc.run
    rw [if_neg (by simp [isRunning, hs] : ¬ isRunning s.world = true),
      if_neg (by simp [isPortAvailable, hs, hf] : ¬ (!isPortAvailable s.world) = true)]
    obtain ⟨⟨a, b, c, d, e, v⟩, g⟩ := s
    cases (hst : e = true)
    rfl
  rw [execute_refused h]
  exact ⟨rfl, rfl, rfl⟩

/-- C120, violated: a server which never comes up leaves its process behind. -/
theorem C120_dead_violation (s : St) (j : Job) (hj : AsksServer j) (hst : s.world.standalone = true)
    (hs : s.world.server = none) (hf : s.world.foreign = false) :
    (execute none s j).1 = ⟨true, none⟩ ∧
      (execute none s j).2.world.procs = s.world.procs ++ [s.world.nextPid] := by
  have h : begin j none s = (false, { s with world :=
      { s.world with procs := s.world.procs ++ [s.world.nextPid], nextPid := s.world.nextPid + 1 } }) := by
    rw [begin_asks hj]
    unfold startServer start Rpc.run
    rw [if_neg (by simp [isRunning, hs] : ¬ isRunning s.world = true),
      if_neg (by simp [isPortAvailable, hs, hf] : ¬ (!isPortAvailable s.world) = true)]
    obtain ⟨⟨a, b, c, d, e, v⟩, g⟩ := s
    cases (hst : e = true)
    rfl
  rw [execute_refused h]
  exact ⟨rfl, rfl⟩

/-- C120, violated: a session which started a server itself loses hold of it by an execution asking for
one; the server runs on and `shutdown_rpc_server` does nothing. -/
theorem C120_lost_violation (s : St) (j : Job) (delay : Option Nat) (p : Nat) (hj : AsksServer j)
    (hb : Builds j) (hs : s.world.server = some p) (hh : s.handle = some p) :
    (execute delay s j).2 = { s with handle := none } ∧ (execute delay s j).2 ≠ s ∧
      shutdown (execute delay s j).2 = (execute delay s j).2 := by
  have h1 := begin_asks hj delay s
  rw [startServer_running hs] at h1
  rw [execute_started hb h1]
  refine ⟨rfl, ?_, rfl⟩
  intro he
  have : (none : Option Nat) = s.handle := congrArg St.handle he
  rw [hh] at this
  cases this

/-- C120, violated: and by one asking for none its server is stopped. -/
theorem C120_stopped_violation (s : St) (j : Job) (delay : Option Nat) (p : Nat) (hj : ¬ AsksServer j)
    (hb : Builds j) (hs : s.world.server = some p) (hh : s.handle = some p) :
    (execute delay s j).2.world.server = none ∧ (execute delay s j).2.handle = none := by
  rw [execute_started hb (begin_not hj delay s)]
  unfold shutdown terminate
  rw [hh, hs]
  exact ⟨rfl, rfl⟩

/-- C120, violated: a session shutting down its server kills whichever server answers. -/
theorem C120_other_killed_violation (s : St) (p q : Nat) (hs : s.world.server = some q)
    (hh : s.handle = some p) :
    (shutdown s).world.server = none ∧ (shutdown s).world.procs = s.world.procs.erase q := by
  unfold shutdown terminate
  rw [hh, hs]
  exact ⟨rfl, rfl⟩

/-- C120, violated: if building the stage raises, the server started for the execution stays. -/
theorem C120_build_violation (s : St) (layers : List (List Str)) (delay : Option Nat) (f : Bool)
    (hj : AsksServer (.nodes layers true f)) (hst : s.world.standalone = true) (hs : s.world.server = none)
    (hf : s.world.foreign = false) (hd : Prompt delay) :
    (execute delay s (.nodes layers true f)).1 = ⟨true, none⟩ ∧
      (execute delay s (.nodes layers true f)).2.world.server = some s.world.nextPid := by
  have h1 : startIfNeeded layers delay s = _ := begin_asks hj delay s
  rw [startServer_starts hst hs hf hd] at h1
  simp only [execute, h1]
  exact ⟨rfl, rfl⟩

/-- C120, violated: a server logging to a socket leaves the environment variable set where it was not;
one which fails to start does so always. -/
theorem C120_verbose_violation (w : World) (hs : w.server = none) (hf : w.foreign = false) :
    (∀ d, Prompt d → (Rpc.run true d w).1 = some true ∧
      (Rpc.run true d w).2.verbose = some (w.verbose.getD "socket".toList)) ∧
    (Rpc.run true none w).1 = none ∧ (Rpc.run true none w).2.verbose = some "socket".toList := by
  constructor
  · rintro _ ⟨d, rfl, hd⟩
    unfold Rpc.run
    rw [if_neg (by simp [isRunning, hs]), if_neg (by simp [isPortAvailable, hs, hf])]
    simp only [if_true]
    rw [wait_some, if_pos (by simp only [answers, decide_eq_true_eq]; omega : answers (some d) (min (max d 1) 5) = true),
      if_neg (by simp only [STARTUP_TIMEOUT]; omega : ¬ min (max d 1) 5 = STARTUP_TIMEOUT)]
    cases w with
    | mk a b c d e v => cases v <;> exact ⟨rfl, rfl⟩
  · unfold Rpc.run
    rw [if_neg (by simp [isRunning, hs]), if_neg (by simp [isPortAvailable, hs, hf])]
    exact ⟨rfl, rfl⟩

/-- A world without a server. -/
def exRpcWorld : World :=
  { server := none, foreign := false, procs := [3], nextPid := 8, standalone := true, verbose := none }

/-- Three executions: one with sub-graphs, one in a context which raises, one without. -/
example : executeAll ⟨exRpcWorld, none⟩
    [(some 4, .graph [["/a".toList], ["/_sub_graph".toList]] false), (some 1, .remote true),
      (some 1, .nodes [["/a".toList]] false false)] =
    ([⟨false, some (some 8)⟩, ⟨true, some (some 9)⟩, ⟨false, some none⟩],
      ⟨{ exRpcWorld with nextPid := 10 }, none⟩) := by decide +kernel

example : Numbered exRpcWorld ∧ Prompt (some 4) ∧
    AsksServer (.graph [["/a".toList], ["/_sub_graph".toList]] false) ∧ ¬ AsksServer (.nodes [["/a".toList]] false false) := by
  refine ⟨by unfold Numbered; decide, ⟨4, rfl, by decide⟩, ⟨["/_sub_graph".toList], by decide, .inr (by decide)⟩, ?_⟩
  rintro ⟨l, h1, h2⟩
  simp only [List.mem_singleton] at h1
  subst h1
  revert h2
  decide

/-- A session holding its own server. -/
example : execute (some 1) ⟨{ exRpcWorld with server := some 3 }, some 3⟩ (.remote false) =
    (⟨false, some (some 3)⟩, ⟨{ exRpcWorld with server := some 3 }, none⟩) := by decide +kernel

end Nxt.Props
