import Verif.Spec.Commands
import Verif.Spec.Version
import Verif.Props.Runtime
import Verif.Props.Version
import Verif.Lemmas.Names
/-!
# C156: what each command does
-/
namespace Nxt.Props
open Dict Commands Spec Rt Py

namespace Cmds

theorem loop_params : ∀ (ws : List Str) (d d' : Dict Str Str), ws.length % 2 = 0 → cliLoop ws d = .params d' →
    ∃ ps : List (Str × Str), ws = ps.flatMap (fun e => [e.1, e.2]) ∧ ∀ e ∈ ps, e.1.head? = some '/'
  | [], _, _, _, _ => ⟨[], rfl, fun _ h => nomatch h⟩
  | [_], _, _, hl, _ => by simp at hl
  | k :: v :: rest, d, d', hl, h => by
    rw [cliLoop] at h
    by_cases hk : startsWith k ['/'] = true
    · rw [if_pos hk] at h
      obtain ⟨ps, rfl, hps⟩ := loop_params rest _ d' (by simp only [List.length_cons] at hl; omega) h
      refine ⟨(k, v) :: ps, rfl, ?_⟩
      intro e he
      rcases List.mem_cons.1 he with rfl | he
      · obtain ⟨t, ht⟩ := startsWith_iff.1 hk
        show k.head? = _
        rw [ht]; rfl
      · exact hps e he
    · rw [if_neg hk] at h
      cases h

/-- What `cliParams` accepts is what the words stand for. -/
theorem params_iff (isFile : Str → Bool) (ws : List Str) (c : CliParams) :
    WordParams isFile ws c → (∃ p, ws = [p] ∧ c = .file p ∧ isFile p = true ∧ cliParams ws = .file p) ∨
      ∃ d, cliParams ws = .params d := by
  rintro (⟨p, hp⟩ | ⟨ps, d, h1, _, h3⟩)
  · exact .inl ⟨p, rfl, rfl, hp, rfl⟩
  · obtain ⟨d', h, _⟩ := C43_pairs ps h1
    exact .inr ⟨d', h⟩

theorem of_params {isFile : Str → Bool} {ws : List Str} {d : Dict Str Str} (h : cliParams ws = .params d) :
    WordParams isFile ws (.params d) := by
  have hl : ws.length % 2 = 0 := by
    rcases Nat.mod_two_eq_zero_or_one ws.length with h0 | h1
    · exact h0
    · have := C43_odd ws h1
      by_cases hw : ws.length = 1
      · obtain ⟨p, rfl⟩ := List.length_eq_one_iff.1 hw
        rw [this.1 p rfl] at h; cases h
      · rw [this.2 hw] at h; cases h
  have hloop : cliLoop ws [] = .params d := by
    unfold cliParams at h
    split at h
    · cases h
    · rw [if_neg (by omega)] at h; exact h
  obtain ⟨ps, rfl, hps⟩ := loop_params ws [] d hl hloop
  obtain ⟨d', h', ho, hg⟩ := C43_pairs ps hps
  rw [h] at h'
  cases h'
  exact .pairs ps d hps ho hg

theorem loop_file (p : Str) : ∀ (ws : List Str) (d : Dict Str Str), cliLoop ws d ≠ .file p
  | [], _, h => by cases h
  | [_], _, h => by cases h
  | k :: v :: rest, d, h => by
    rw [cliLoop] at h
    split at h
    · exact loop_file p rest _ h
    · cases h

theorem file_words {ws : List Str} {p : Str} (h : cliParams ws = .file p) : ws = [p] := by
  unfold cliParams at h
  split at h
  · cases h; rfl
  · split at h
    · cases h
    · exfalso
      exact loop_file p _ _ h

/-- A text without a character of `t` at the join holds `t` on one of its sides. -/
theorem holds_join {a b t : Str} {c : Char} (hc : c ∉ t) (h : HoldsText (a ++ c :: b) t) :
    HoldsText a t ∨ HoldsText b t := by
  obtain ⟨x, y, h⟩ := h
  rw [List.append_assoc] at h
  rcases List.append_eq_append_iff.1 h with ⟨m, hx, hm⟩ | ⟨m, ha, hm⟩
  · -- `x = a ++ m`
    cases m with
    | nil =>
      simp only [List.nil_append] at hm
      cases t with
      | nil => exact .inl ⟨a, [], by simp⟩
      | cons t0 ts =>
        simp only [List.cons_append, List.cons.injEq] at hm
        exact absurd (hm.1 ▸ List.mem_cons_self) hc
    | cons m0 ms =>
      simp only [List.cons_append, List.cons.injEq] at hm
      exact .inr ⟨ms, y, by rw [hm.2]; simp⟩
  · -- `a = x ++ m`
    rcases List.append_eq_append_iff.1 hm with ⟨n, hn, hy⟩ | ⟨n, hn, hy⟩
    · exact .inl ⟨x, n, by rw [ha, hn]; simp⟩
    · cases n with
      | nil => exact .inl ⟨x, [], by rw [ha]; simp [hn]⟩
      | cons n0 ns =>
        simp only [List.cons_append, List.cons.injEq] at hy
        exact absurd (by rw [hn, ← hy.1]; simp) hc

theorem contains_holds {s t : Str} : contains s t = true ↔ HoldsText s t := contains_iff

theorem decimal_dec (n : Nat) : Decimal (Names.dec n) n := by
  induction n using Nat.strongRecOn with
  | _ n ih =>
    have hd : ∀ k, k < 10 → ('0' ≤ Names.digitChar k ∧ Names.digitChar k ≤ '9') ∧
        (Names.digitChar k).toNat - '0'.toNat = k := by decide
    rw [Names.dec]
    split
    · rename_i h
      have := Decimal.one (Names.digitChar n) (hd n h).1
      rwa [(hd n h).2] at this
    · rename_i h
      have := Decimal.snoc _ _ (Names.digitChar (n % 10)) (hd _ (Nat.mod_lt _ (by decide))).1 (ih (n / 10) (by omega))
      rw [(hd _ (Nat.mod_lt _ (by decide))).2] at this
      rwa [show 10 * (n / 10) + n % 10 = n from by omega] at this

end Cmds

/-- C156: `exec` executes the file named with the start, the context and the parameters its words stand for, and
nothing else; words which stand for no parameters raise and nothing is executed. -/
theorem C156_exec (w : World) (f : Str) (s c : Option Str) (ws : List Str) :
    (∃ ps, WordParams w.isFile ws ps ∧ dispatch w (.exec f s c ws) = ([.execute f s ps c], .returned)) ∨
      ((¬ ∃ ps, WordParams w.isFile ws ps) ∧ dispatch w (.exec f s c ws) = ([], .raised)) := by
  have no : ∀ {r}, cliParams ws = r → (∀ d, r ≠ .params d) → (∀ p, r = .file p → w.isFile p = false) →
      ¬ ∃ ps, WordParams w.isFile ws ps := by
    rintro r hr h1 h2 ⟨ps, hps⟩
    rcases Cmds.params_iff w.isFile ws ps hps with ⟨p, _, _, hp, hc⟩ | ⟨d, hd⟩
    · rw [h2 p (hr.symm.trans hc)] at hp; cases hp
    · exact h1 d (hr.symm.trans hd)
  show (∃ ps, _ ∧ execute w [f] s ws c = _) ∨ (_ ∧ execute w [f] s ws c = _)
  unfold execute
  cases hc : cliParams ws with
  | oddCount => exact .inr ⟨no hc (fun _ h => nomatch h) (fun _ h => nomatch h), rfl⟩
  | badKey k => exact .inr ⟨no hc (fun _ h => nomatch h) (fun _ h => nomatch h), rfl⟩
  | params d => exact .inl ⟨_, Cmds.of_params hc, rfl⟩
  | file p =>
    cases hf : w.isFile p with
    | true =>
      obtain rfl := Cmds.file_words hc
      exact .inl ⟨_, .file p hf, by simp [hf]⟩
    | false =>
      refine .inr ⟨no hc (fun _ h => nomatch h) (fun q h => by cases h; exact hf), by simp [hf]⟩

/-- C156: `convert` converts the file named and nothing else, and replaces it only when `-r` was given. -/
theorem C156_convert (w : World) (f : Str) (r : Option Str) :
    ∃ b, dispatch w (.convert f r) = ([.convert f b], .exited) ∧ (b = true → r ≠ none) := by
  refine ⟨_, rfl, ?_⟩
  rintro h rfl
  cases h

/-- C156: every command does at most one thing. -/
theorem C156_one (w : World) (p : Parsed) : (dispatch w p).1.length ≤ 1 := by
  have he : ∀ path s ws c, (execute w path s ws c).1.length ≤ 1 := by
    intro path s ws c
    unfold execute
    cases cliParams ws with
    | oddCount => simp
    | badKey k => simp
    | params d => cases path <;> simp
    | file p => cases hf : w.isFile p <;> cases path <;> simp [hf]
  have hc : ∀ path r, (convert path r).1.length ≤ 1 := by
    intro path r
    cases path <;> simp [convert]
  cases p with
  | noVerb => exact Nat.le_refl _
  | legacyVerb => exact Nat.le_refl _
  | ui f n => cases hw : w.hasEditor <;> simp [dispatch, editor, hw]
  | exec => exact he _ _ _ _
  | convert => exact hc _ _
  | test => exact he _ _ _ _
  | fallback f g cv r =>
    have hx : (if cv = true then convert (listed f) r else execute w (listed f) none [] none).1.length ≤ 1 := by
      split
      · exact hc _ _
      · exact he _ _ _ _
    cases g with
    | false => simpa [dispatch, andThen] using hx
    | true =>
      cases hw : w.hasEditor
      · simpa [dispatch, andThen, editor, hw] using hx
      · simp [dispatch, andThen, editor, hw]

/-- C156: what a command does is what it is for, unless the old flag `-gui` or the word `legacy` was given, or an
empty text after `-r`.  Missing: these, see `C156_gui_violation`, `C156_legacy_verb_violation` and
`C156_replace_violation`. -/
theorem C156_asked_partial (w : World) (p : Parsed) (hg : ∀ f r, p ≠ .fallback f true false r)
    (hl : ∀ f, p ≠ .legacyVerb f) (hr : ∀ f, p ≠ .convert f (some [])) (a : Act) (ha : a ∈ (dispatch w p).1) :
    AskedFor w p a := by
  cases p with
  | noVerb => cases List.mem_singleton.1 ha; exact .help
  | legacyVerb f => exact absurd rfl (hl f)
  | ui f n =>
    cases hw : w.hasEditor
    · simp [dispatch, editor, hw] at ha
    · have : a = .editor [f] (!n) := by simpa [dispatch, editor, hw] using ha
      subst this
      cases n
      · exact .ui f
      · exact .uiNoRpc f
  | exec f s c ws =>
    rcases C156_exec w f s c ws with ⟨ps, hps, hd⟩ | ⟨_, hd⟩
    · rw [hd] at ha
      cases List.mem_singleton.1 ha
      exact .exec f s c ws ps hps
    · rw [hd] at ha; cases ha
  | convert f r =>
    cases List.mem_singleton.1 ha
    cases r with
    | none => exact .convert f
    | some t =>
      cases t with
      | nil => exact absurd rfl (hr f)
      | cons x xs => exact .replace f (x :: xs)
  | test => cases List.mem_singleton.1 ha; exact .test
  | fallback f g cv r =>
    cases f with
    | nil => cases g <;> cases cv <;> cases hw : w.hasEditor <;>
        simp [dispatch, andThen, editor, hw, listed, convert, execute, cliParams, cliLoop] at ha
    | cons x xs =>
      cases cv with
      | false =>
        cases g with
        | true => exact absurd rfl (hg _ r)
        | false =>
          have : a = .execute (x :: xs) none (.params []) none := by
            simpa [dispatch, andThen, listed, execute, cliParams, cliLoop] using ha
          subst this
          exact .oldExec _ r
      | true =>
        have : a = .convert (x :: xs) r := by
          cases g
          · simpa [dispatch, andThen, listed, convert] using ha
          · cases hw : w.hasEditor
            · simpa [dispatch, andThen, editor, hw, listed, convert] using ha
            · simp [dispatch, andThen, editor, hw] at ha
        subst this
        exact .oldConvert _ g r

/-- C156: a file named without a command is executed as by `exec` alone; with `-c` it is converted, replaced just
when `-r` was given. -/
theorem C156_old (w : World) (f : Str) (hf : f ≠ []) (r : Bool) :
    dispatch w (.fallback f false false r) = dispatch w (.exec f none none []) ∧
    dispatch w (.fallback f false true r) = ([.convert f r], .exited) := by
  cases f with
  | nil => exact absurd rfl hf
  | cons x xs => exact ⟨rfl, rfl⟩

/-- C156: the old flag `-gui` never opens the editor.  Where there is one the command raises (the namespace has no
`no_rpc`); where there is none the graph is executed instead. -/
theorem C156_gui_violation (w : World) (f : Str) (hf : f ≠ []) (r : Bool) :
    (∀ paths rpc, Act.editor paths rpc ∉ (dispatch w (.fallback f true false r)).1) ∧
    dispatch w (.fallback f true false r) =
      if w.hasEditor then ([], .raised) else ([.execute f none (.params []) none], .returned) := by
  cases f with
  | nil => exact absurd rfl hf
  | cons x xs =>
    cases hw : w.hasEditor
    · constructor
      · intro paths rpc h
        simp [dispatch, andThen, editor, hw, listed, execute, cliParams, cliLoop] at h
      · simp [dispatch, andThen, editor, hw, listed, execute, cliParams, cliLoop]
    · constructor
      · intro paths rpc h
        simp [dispatch, andThen, editor, hw] at h
      · simp [dispatch, andThen, editor, hw]

/-- C156: the word `legacy`, which is offered as a command, only shows the help. -/
theorem C156_legacy_verb_violation (w : World) (f : Str) : (dispatch w (.legacyVerb f)).1 = [.help] := rfl

/-- C156: `-r` of `convert` wants a value: any text but the empty one replaces the file, also `no`. -/
theorem C156_replace_violation (w : World) (f : Str) :
    (dispatch w (.convert f (some "no".toList))).1 = [.convert f true] ∧
    (dispatch w (.convert f (some []))).1 = [.convert f false] := ⟨rfl, rfl⟩

/-- C156: a word which is no command is taken for a file of the old style just when it holds `.nxt`; the texts
argparse puts around the word hold none. -/
theorem C156_files (before after word : Str) (hb : ¬ HoldsText before ".nxt".toList)
    (ha : ¬ HoldsText after ".nxt".toList) :
    errorOf (unknownVerb before after word) =
      (open Classical in if HoldsText word ".nxt".toList then .invalidChoice else .usage) := by
  have h1 : contains (unknownVerb before after word) "invalid choice".toList = true := by
    refine Cmds.contains_holds.2 ⟨before, ": '".toList ++ word ++ '\'' :: after, ?_⟩
    have : "invalid choice: '".toList = "invalid choice".toList ++ ": '".toList := by decide
    unfold unknownVerb
    rw [this]
    simp only [List.append_assoc]
  unfold errorOf
  rw [if_pos h1]
  by_cases hw : HoldsText word ".nxt".toList
  · have h2 : contains (unknownVerb before after word) ".nxt".toList = true := by
      obtain ⟨a, b, rfl⟩ := hw
      exact Cmds.contains_holds.2 ⟨before ++ "invalid choice: '".toList ++ a, b ++ '\'' :: after, by
        simp [unknownVerb]⟩
    rw [if_pos h2, if_pos hw]
  · have h2 : ¬ contains (unknownVerb before after word) ".nxt".toList = true := by
      intro h
      rcases Cmds.holds_join (by decide) (Cmds.contains_holds.1 h) with h | h
      · have e : before ++ "invalid choice: '".toList ++ word =
            (before ++ "invalid choice: ".toList) ++ '\'' :: word := by
          have : "invalid choice: '".toList = "invalid choice: ".toList ++ ['\''] := by decide
          rw [this]; simp only [List.append_assoc, List.cons_append, List.nil_append]
        rw [e] at h
        rcases Cmds.holds_join (by decide) h with h | h
        · have e2 : before ++ "invalid choice: ".toList =
              before ++ 'i' :: "nvalid choice: ".toList := by
            have : "invalid choice: ".toList = 'i' :: "nvalid choice: ".toList := by decide
            rw [this]
          rw [e2] at h
          rcases Cmds.holds_join (by decide) h with h | h
          · exact hb h
          · exact absurd (Cmds.contains_holds.2 h) (by decide)
        · exact hw h
      · exact ha h
    rw [if_neg h2, if_neg hw]

/-- C156: without a command the help is shown, `test` executes the graph of the tests, and `ui` opens the editor on
the file, where there is one. -/
theorem C156_others (w : World) (f : Str) (n : Bool) :
    dispatch w .noVerb = ([.help], .exited) ∧
    dispatch w .test = ([.execute (w.package ++ "/test/unittests.nxt".toList) none (.params []) none], .returned) ∧
    (w.hasEditor = true → dispatch w (.ui f n) = ([.editor [f] (!n)], .exited)) ∧
    (w.hasEditor = false → dispatch w (.ui f n) = ([], .returned)) := by
  refine ⟨rfl, rfl, fun h => ?_, fun h => ?_⟩ <;> simp [dispatch, editor, h]

/-- C156: an empty text in the place of the file makes the old style raise, with nothing done. -/
theorem C156_empty (w : World) (c r : Bool) : dispatch w (.fallback [] false c r) = ([], .raised) := by
  cases c <;> rfl

/-- C156: words no parser knows lead to the old style just when `-gui` is among them. -/
theorem C156_unknown_words (words : Str) (hw : ¬ HoldsText words "invalid choice".toList) :
    errorOf ("unrecognized arguments: ".toList ++ words) =
      (open Classical in if HoldsText words "-gui".toList then .unrecognizedArg else .usage) := by
  have e : "unrecognized arguments: ".toList ++ words = "unrecognized arguments:".toList ++ ' ' :: words := by
    have : "unrecognized arguments: ".toList = "unrecognized arguments:".toList ++ [' '] := by decide
    rw [this]; simp only [List.append_assoc, List.cons_append, List.nil_append]
  have h1 : ¬ contains ("unrecognized arguments: ".toList ++ words) "invalid choice".toList = true := by
    intro h
    have e2 : "unrecognized arguments: ".toList ++ words = "unrecognized arguments".toList ++ ':' :: ' ' :: words := by
      have : "unrecognized arguments: ".toList = "unrecognized arguments".toList ++ [':', ' '] := by decide
      rw [this]; simp only [List.append_assoc, List.cons_append, List.nil_append]
    rw [e2] at h
    rcases Cmds.holds_join (by decide) (Cmds.contains_holds.1 h) with h | ⟨a, b, h⟩
    · exact absurd (Cmds.contains_holds.2 h) (by decide)
    · cases a with
      | nil =>
        have : "invalid choice".toList = 'i' :: "nvalid choice".toList := by decide
        rw [this] at h
        simp only [List.nil_append, List.cons_append, List.cons.injEq] at h
        exact absurd h.1 (by decide)
      | cons x xs =>
        simp only [List.cons_append, List.cons.injEq] at h
        exact hw ⟨xs, b, h.2⟩
  have h2 : contains ("unrecognized arguments: ".toList ++ words) "unrecognized arguments".toList = true := by
    refine Cmds.contains_holds.2 ⟨[], ": ".toList ++ words, ?_⟩
    have : "unrecognized arguments: ".toList = "unrecognized arguments".toList ++ ": ".toList := by decide
    rw [this]; simp only [List.append_assoc, List.nil_append]
  unfold errorOf
  rw [if_neg h1, if_pos h2]
  by_cases hg : HoldsText words "-gui".toList
  · rw [if_pos hg, if_pos]
    obtain ⟨a, b, rfl⟩ := hg
    exact Cmds.contains_holds.2 ⟨"unrecognized arguments: ".toList ++ a, b, by simp only [List.append_assoc]⟩
  · rw [if_neg hg, if_neg]
    intro h
    rw [e] at h
    rcases Cmds.holds_join (by decide) (Cmds.contains_holds.1 h) with h | h
    · exact absurd (Cmds.contains_holds.2 h) (by decide)
    · exact hg h

/-- C156: `-v` repeated `n` times sets that level; a value already in the environment is kept, and one put there
reads as `n`. -/
theorem C156_verbose (env : Option Str) (n : Nat) (hn : n ≠ 0) :
    (verbose env (some (.count n))).2 = some (n : Int) ∧
    (∀ t, env = some t → (verbose env (some (.count n))).1 = some t) ∧
    (env = none → ∃ t, (verbose env (some (.count n))).1 = some t ∧ IntText t n) := by
  cases n with
  | zero => exact absurd rfl hn
  | succ n =>
    refine ⟨rfl, ?_, ?_⟩
    · rintro t rfl; rfl
    · rintro rfl
      exact ⟨Names.dec (n + 1), rfl, (C26_integers _ _).1 (Version.parseInt_decimal (Cmds.decimal_dec (n + 1)))⟩

/-- C156: without the flag nothing changes. -/
theorem C156_quiet (env : Option Str) :
    verbose env none = (env, none) ∧ verbose env (some (.count 0)) = (env, none) := ⟨rfl, rfl⟩

/-- C156: after `-v` with a file named without a command the environment holds a text which is no number, so every
process started from there fails when it sets up its logging (`int(level)`, nxt_log.py:198). -/
theorem C156_verbose_violation : ∃ t, (verbose none (some .yes)).1 = some t ∧ t ≠ "socket".toList ∧
    ¬ ∃ z, IntText t z := by
  refine ⟨"True".toList, rfl, by decide, ?_⟩
  rintro ⟨z, hz⟩
  have := (C26_integers _ _).2 hz
  exact absurd this (by rw [show Version.parseInt "True".toList = none from by decide]; exact fun h => nomatch h)

/-! ### Examples -/

/-- A machine without editor, with one file of parameters. -/
def exCmd : World := { hasEditor := false, isFile := fun p => p = "/p.json".toList, package := "/nxt".toList }

example : dispatch exCmd (.exec "/g.nxt".toList (some "/a".toList) none ["/a.x".toList, "1".toList, "/a.x".toList, "2".toList]) =
    ([.execute "/g.nxt".toList (some "/a".toList) (.params [("/a.x".toList, "2".toList)]) none], .returned) := by decide

example : dispatch exCmd (.exec "/g.nxt".toList none none ["/p.json".toList]) =
    ([.execute "/g.nxt".toList none (.file "/p.json".toList) none], .returned) := by decide

example : dispatch exCmd (.exec "/g.nxt".toList none none ["/q.json".toList]) = ([], .raised) := by decide

example : dispatch exCmd (.fallback "/g.nxt".toList true false false) =
    ([.execute "/g.nxt".toList none (.params []) none], .returned) := by decide

example : errorOf (unknownVerb "argument command: ".toList " (choose from 'exec')".toList "/g.nxt".toList) = .invalidChoice ∧
    errorOf (unknownVerb "argument command: ".toList " (choose from 'exec')".toList "run".toList) = .usage := by
  decide +kernel

example : errorOf "unrecognized arguments: -gui".toList = .unrecognizedArg ∧
    errorOf "unrecognized arguments: -x".toList = .usage := by decide +kernel

end Nxt.Props
