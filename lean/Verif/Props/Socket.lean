import Verif.Spec.Socket
/-!
# Property C130: the socket client
-/
namespace Nxt.Props
open Spec Socket

namespace SocketClient

theorem told_append (a b : List Event) (x : Bool) : told (a ++ b) x = told b (told a x) := by
  induction a generalizing x with
  | nil => rfl
  | cons e a ih =>
    cases e with
    | did w => exact ih x
    | sent m => cases m <;> exact ih _

theorem covered_append (a b : List Event) (x : Bool) : Covered (a ++ b) x ↔ Covered a x ∧ Covered b (told a x) := by
  induction a generalizing x with
  | nil => simp [Covered, told]
  | cons e a ih =>
    cases e with
    | did w =>
      show (x = true ∧ Covered (a ++ b) x) ↔ (x = true ∧ Covered a x) ∧ Covered b (told a x)
      rw [ih, and_assoc]
    | sent m => cases m <;> exact ih _

/-- The connection is left alone. -/
def Steady (a : Cmd) : Prop := ∀ c, (a c).1.server = c.server ∧ (a c).1.handlers = c.handlers

theorem steady_andThen {a b : Cmd} (ha : Steady a) (hb : Steady b) : Steady (andThen a b) := by
  intro c
  have h1 := ha c
  unfold andThen
  rcases hac : a c with ⟨c', tr, r⟩
  rw [hac] at h1
  cases r with
  | true => exact h1
  | false => exact ⟨(hb c').1.trans h1.1, (hb c').2.trans h1.2⟩

theorem steady_work (fails : Work → Bool) (w : Work) {f : Client → Client}
    (hf : ∀ c, (f c).server = c.server ∧ (f c).handlers = c.handlers) : Steady (work fails w f) := by
  intro c
  unfold work
  split
  · exact ⟨rfl, rfl⟩
  · exact hf c

theorem sendWait_client (answers b : Bool) (c : Client) : (sendWait answers b c).1 = c := by
  unfold sendWait; split <;> rfl

theorem steady_waiting {answers : Bool} {body : Cmd} (h : Steady body) : Steady (waiting answers body) := by
  intro c
  unfold waiting
  simp only [sendWait_client]
  exact h c

theorem steady_made (fails : Work → Bool) :
    Steady (andThen (work fails .comp id) (work fails .runtime (fun c => { c with runtime := true }))) :=
  steady_andThen (steady_work fails .comp (f := id) fun _ => ⟨rfl, rfl⟩)
    (steady_work fails .runtime (f := fun c => { c with runtime := true }) fun _ => ⟨rfl, rfl⟩)

theorem steady_rebuild (answers : Bool) (fails : Work → Bool) : Steady (rebuild answers fails) := by
  refine steady_waiting fun c => ?_
  split
  · exact steady_made fails c
  · exact ⟨rfl, rfl⟩

/-- Waiting as a whole, with the connection up. -/
theorem waiting_events {answers : Bool} {body : Cmd} (h : Steady body) {c : Client} (hc : c.server = true) :
    (waiting answers body c).2.1 = (.sent (.wait true) :: (if answers then [] else [.sent (.wait false)])) ++ (body c).2.1 ++
      (.sent (.wait false) :: (if answers then [] else [.sent (.wait false)])) := by
  unfold waiting
  simp only [sendWait_client]
  unfold sendWait
  rw [if_pos hc, if_pos ((h c).1.trans hc)]

theorem waiting_released {answers : Bool} {body : Cmd} (h : Steady body) {c : Client} (hc : c.server = true) (b : Bool) :
    told (waiting answers body c).2.1 b = false := by
  rw [waiting_events h hc, told_append]
  cases answers <;> rfl

theorem waiting_covered {body : Cmd} (h : Steady body) {c : Client} (hc : c.server = true)
    (hb : Covered (body c).2.1 true) (b : Bool) : Covered (waiting true body c).2.1 b := by
  rw [waiting_events h hc, covered_append, covered_append]
  exact ⟨⟨trivial, hb⟩, trivial⟩

theorem steady_load (answers : Bool) (fails : Work → Bool) : Steady (andThen (fun c => work fails .read id { c with filepath := true })
    (andThen (work fails .stage (fun c => { c with stage := true })) (rebuild answers fails))) :=
  steady_andThen (fun c => (steady_work fails .read (f := id) fun _ => ⟨rfl, rfl⟩) { c with filepath := true })
    (steady_andThen (steady_work fails .stage (f := fun c => { c with stage := true }) fun _ => ⟨rfl, rfl⟩) (steady_rebuild answers fails))

theorem steady_refresh (answers : Bool) (fails : Work → Bool) : Steady (fun c => if c.filepath then
    andThen (work fails .read id)
      (andThen (work fails .stage (fun c => { c with stage := true })) (rebuild answers fails)) c
  else skip c) := by
  intro c
  simp only []
  split
  · exact steady_andThen (steady_work fails .read (f := id) fun _ => ⟨rfl, rfl⟩)
      (steady_andThen (steady_work fails .stage (f := fun c => { c with stage := true }) fun _ => ⟨rfl, rfl⟩) (steady_rebuild answers fails)) c
  · exact ⟨rfl, rfl⟩

theorem steady_runInner (answers : Bool) (fails : Work → Bool) : Steady (runInner answers fails) := by
  intro c
  unfold runInner
  split
  · refine steady_andThen (fun c => ?_) (steady_work fails .execute fun _ => ⟨rfl, rfl⟩) c
    split
    · exact ⟨rfl, rfl⟩
    · exact steady_rebuild answers fails c
  · exact ⟨rfl, rfl⟩

/-- The body of `run`. -/
def runBody (answers : Bool) (fails : Work → Bool) : Cmd := fun c =>
  match runInner answers fails c with
  | (c, tr, true) =>
    if tr.getLast? = some (.did .execute) then ((send .err c).1, tr ++ (send .err c).2.1, false) else (c, tr, true)
  | (c, tr, false) => (c, tr, false)

theorem steady_run (answers : Bool) (fails : Work → Bool) : Steady (runBody answers fails) := by
  intro c
  have h := steady_runInner answers fails c
  unfold runBody
  rcases hr : runInner answers fails c with ⟨c', tr, r⟩
  rw [hr] at h
  cases r with
  | true =>
    dsimp only
    by_cases hl : tr.getLast? = some (.did .execute)
    · rw [if_pos hl]; exact h
    · rw [if_neg hl]; exact h
  | false => exact h

theorem steady_getCache (fails : Work → Bool) : Steady (fun c => if c.runtime then andThen (work fails .save id) (send .cache) c
    else (c, [], true)) := by
  intro c
  simp only []
  split
  · exact steady_andThen (steady_work fails .save (f := id) fun _ => ⟨rfl, rfl⟩) (fun _ => ⟨rfl, rfl⟩) c
  · exact ⟨rfl, rfl⟩

theorem rebuild_body (fails : Work → Bool) (c : Client) : Covered ((if c.stage then
    andThen (work fails .comp id) (work fails .runtime (fun c => { c with runtime := true })) c else skip c).2.1) true := by
  split
  · unfold andThen work
    cases fails .comp <;> cases fails .runtime <;> simp [Covered]
  · trivial

theorem rebuild_covered (fails : Work → Bool) {c : Client} (hc : c.server = true) (b : Bool) :
    Covered (rebuild true fails c).2.1 b := by
  refine waiting_covered ?_ hc (rebuild_body fails c) b
  intro c
  simp only []
  split
  · exact steady_made fails c
  · exact ⟨rfl, rfl⟩

theorem covered_work (fails : Work → Bool) (w : Work) (f : Client → Client) {b : Cmd} {c : Client}
    (hb : Covered (b (f c)).2.1 true) : Covered (andThen (work fails w f) b c).2.1 true := by
  unfold andThen work
  cases fails w with
  | true => simp [Covered]
  | false => simp [Covered, hb]

end SocketClient
open SocketClient

/-! ## C130 -/

/-- The commands the server can give. -/
def socketCommands (answers : Bool) (fails : Work → Bool) : List Cmd :=
  [load answers fails, run answers fails, refresh answers fails, ping answers, getCache answers fails, rebuild answers fails]

/-- C130: with the connection up, every command ends with the server told to wait no longer, whatever work raises and
whether or not the server answers; and it leaves the connection up. -/
theorem C130_released (answers : Bool) (fails : Work → Bool) {cmd : Cmd} (h : cmd ∈ socketCommands answers fails) {c : Client}
    (hc : c.server = true) (b : Bool) : told (cmd c).2.1 b = false ∧ (cmd c).1.server = true := by
  have key : ∀ body : Cmd, Steady body → told (waiting answers body c).2.1 b = false ∧ (waiting answers body c).1.server = true :=
    fun body hb => ⟨waiting_released hb hc b, ((steady_waiting hb) c).1.trans hc⟩
  simp only [socketCommands, List.mem_cons, List.not_mem_nil, or_false] at h
  rcases h with rfl | rfl | rfl | rfl | rfl | rfl
  · exact key _ (steady_load answers fails)
  · exact key _ (steady_run answers fails)
  · exact key _ (steady_refresh answers fails)
  · exact key _ (fun _ => ⟨rfl, rfl⟩)
  · exact key _ (steady_getCache fails)
  · refine key _ fun c => ?_
    split
    · exact steady_made fails c
    · exact ⟨rfl, rfl⟩

/-- C130: with the connection up and a server which answers, all work is done while the server has been told to wait, but
for running a stage whose runtime layer has to be made first.  Missing: that case (`C130_run_violation`), and servers
which do not answer (`C130_answer_violation`). -/
theorem C130_covered_partial (fails : Work → Bool) {cmd : Cmd} (h : cmd ∈ socketCommands true fails) {c : Client}
    (hc : c.server = true) (hr : c.stage = true → c.runtime = true) (b : Bool) : Covered (cmd c).2.1 b := by
  simp only [socketCommands, List.mem_cons, List.not_mem_nil, or_false] at h
  rcases h with rfl | rfl | rfl | rfl | rfl | rfl
  · refine waiting_covered (steady_load true fails) hc ?_ b
    have : ∀ c : Client, c.server = true → Covered (andThen (work fails .stage (fun c => { c with stage := true }))
        (rebuild true fails) c).2.1 true := by
      intro c hc
      exact covered_work fails .stage _ (rebuild_covered fails (by exact hc) true)
    exact covered_work fails .read id (c := { c with filepath := true }) (this _ hc)
  · refine waiting_covered (steady_run true fails) hc ?_ b
    unfold runBody runInner
    split
    · rename_i c' tr hrun
      have : tr = [Event.did .execute] ∨ tr = [] := by
        split at hrun
        · rename_i hs
          simp only [andThen, skip, work, hr hs, if_true] at hrun
          split at hrun <;> simp_all
        · simp [skip] at hrun
      rcases this with rfl | rfl
      · simp only [List.getLast?_singleton, if_pos, covered_append]
        unfold send
        cases c'.server <;> simp [Covered, told]
      · simp [Covered]
    · rename_i c' tr hrun
      have : tr = [Event.did .execute] ∨ tr = [] := by
        split at hrun
        · rename_i hs
          simp only [andThen, skip, work, hr hs, if_true] at hrun
          split at hrun <;> simp_all
        · simp [skip] at hrun; right; exact hrun.2
      rcases this with rfl | rfl <;> simp [Covered]
  · refine waiting_covered (steady_refresh true fails) hc ?_ b
    split
    · exact covered_work fails .read id (covered_work fails .stage _ (rebuild_covered fails (by exact hc) true))
    · trivial
  · refine waiting_covered (fun _ => ⟨rfl, rfl⟩) hc ?_ b
    unfold send
    split <;> trivial
  · refine waiting_covered (steady_getCache fails) hc ?_ b
    split
    · refine covered_work fails .save id ?_
      unfold send
      split <;> trivial
    · trivial
  · exact rebuild_covered fails hc b

/-- C130, what does not hold: if the composite layer could not be made when loading, running makes it, after which the
server is told to wait no longer and nodes are executed. -/
theorem C130_run_violation :
    let failing : Work → Bool := fun w => w = .comp
    let loaded := (load true failing { server := true, handlers := 1 }).1
    loaded = { filepath := true, stage := true, server := true, handlers := 1 } ∧
    (run true (fun _ => false) loaded).2.1 =
      [.sent (.wait true), .sent (.wait true), .did .comp, .did .runtime, .sent (.wait false), .did .execute, .sent (.wait false)] ∧
    ¬ Covered (run true (fun _ => false) loaded).2.1 false := by
  decide

/-- C130, what does not hold: if the server does not answer, it is told to wait no longer before the work begins. -/
theorem C130_answer_violation :
    (refresh false (fun _ => false) { filepath := true, server := true }).2.1.take 3 =
      [.sent (.wait true), .sent (.wait false), .did .read] := by
  decide

/-- C130: however often the connection is opened and closed, the logger has one socket handler while it is open and none
after it is closed. -/
theorem C130_handlers (ls : List Link) (last : Link) :
    let c := linked (ls ++ [last]) {}
    match last with
    | .opened => c.server = true ∧ c.handlers = 1
    | .closed _ => c.server = false ∧ c.handlers = 0 := by
  have hle : ∀ (ls : List Link) (c : Client), c.handlers ≤ 1 → (linked ls c).handlers ≤ 1 := by
    intro ls
    induction ls with
    | nil => intro c h; exact h
    | cons l ls ih =>
      intro c h
      cases l with
      | opened =>
        refine ih _ ?_
        show (if c.handlers = 0 then c.handlers + 1 else c.handlers) ≤ 1
        split <;> omega
      | closed n =>
        refine ih _ ?_
        show c.handlers - 1 ≤ 1
        omega
  have happ : ∀ (ls ms : List Link) (c : Client), linked (ls ++ ms) c = linked ms (linked ls c) := by
    intro ls
    induction ls with
    | nil => intro ms c; rfl
    | cons l ls ih => intro ms c; cases l <;> exact ih ms _
  have h1 := hle ls {} (by decide)
  simp only [happ]
  generalize linked ls {} = c at h1
  cases last with
  | opened =>
    refine ⟨rfl, ?_⟩
    show (if c.handlers = 0 then c.handlers + 1 else c.handlers) = 1
    split <;> omega
  | closed n =>
    refine ⟨rfl, ?_⟩
    show c.handlers - 1 = 0
    omega

/-- C130, what does not hold: once the socket of an open connection is found stale, logging an error never ends. -/
theorem C130_log_violation (ls : List Link) (fuel : Nat) : logError (stale (linked (ls ++ [.opened]) {})) fuel = none := by
  have h := C130_handlers ls .opened
  simp only at h
  generalize linked (ls ++ [.opened]) {} = c at h
  induction fuel with
  | zero => rfl
  | succ fuel ih =>
    unfold logError
    rw [if_neg (by show c.handlers ≠ 0; rw [h.2]; decide), if_neg (by simp [stale]), ih]; rfl

/-- While the connection is up or after closing it, logging an error ends. -/
example : logError (linked [.closed true, .opened, .opened] {}) 5 = some 1 ∧ logError (linked [.opened, .closed true] {}) 5 = some 1 :=
  by decide

/-- A command in which work raises: loading fails on reading the file, the server is let go. -/
example : (load true (fun w => w = .read) { server := true }).2 =
    ([.sent (.wait true), .did .read, .sent (.wait false)], true) := by decide

/-- Executing raises: the server learns of the error before it is let go. -/
example : (run true (fun w => w = .execute) { server := true, stage := true, runtime := true }).2 =
    ([.sent (.wait true), .did .execute, .sent .err, .sent (.wait false)], false) := by decide

/-- The cache is saved before the server is told of it, and it is not told if saving raises. -/
example : (getCache true (fun _ => false) { server := true, runtime := true }).2 =
    ([.sent (.wait true), .did .save, .sent .cache, .sent (.wait false)], false) ∧
    (getCache true (fun w => w = .save) { server := true, runtime := true }).2 =
    ([.sent (.wait true), .did .save, .sent (.wait false)], true) := by decide

end Nxt.Props
