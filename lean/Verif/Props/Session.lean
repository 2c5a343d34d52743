import Verif.Spec.Session
import Verif.Props.Disk
import Verif.Props.Names
/-!
# Property C119: the graphs loaded in a session
-/
namespace Nxt.Props
open Dict LayerData Spec Disk Session

namespace Sessions

theorem open_snoc_made {log : List Answer} {g h : Graph} :
    Open (log ++ [.made h]) g ↔ Open log g ∨ g = h := by
  constructor
  · rintro ⟨bf, af, h1, h2⟩
    rcases List.eq_nil_or_concat af with rfl | ⟨af', x, rfl⟩
    · have := (List.append_inj' h1 (by simp)).2
      simp only [List.cons.injEq, Answer.made.injEq, and_true] at this
      exact .inr this.symm
    · rw [List.concat_eq_append, ← List.cons_append, ← List.append_assoc] at h1
      obtain ⟨h3, h4⟩ := List.append_inj' h1 (by simp)
      exact .inl ⟨bf, af', h3, fun h => h2 (by simp [h])⟩
  · rintro (⟨bf, af, rfl, h2⟩ | rfl)
    · exact ⟨bf, af ++ [.made h], by simp, by simpa using h2⟩
    · exact ⟨log, [], rfl, by simp⟩

theorem open_snoc_dropped {log : List Answer} {g : Graph} {u : Nat} :
    Open (log ++ [.dropped u]) g ↔ Open log g ∧ g.uid ≠ u := by
  constructor
  · rintro ⟨bf, af, h1, h2⟩
    rcases List.eq_nil_or_concat af with rfl | ⟨af', x, rfl⟩
    · have := (List.append_inj' h1 (by simp)).2
      simp at this
    · rw [List.concat_eq_append, ← List.cons_append, ← List.append_assoc] at h1
      obtain ⟨h3, h4⟩ := List.append_inj' h1 (by simp)
      simp only [List.cons.injEq, and_true] at h4
      subst h4
      refine ⟨⟨bf, af', h3, fun h => h2 (by simp [h])⟩, ?_⟩
      intro he
      exact h2 (by simp [he])
  · rintro ⟨⟨bf, af, rfl, h2⟩, h3⟩
    refine ⟨bf, af ++ [.dropped u], by simp, ?_⟩
    simp only [List.mem_append, List.mem_singleton, Answer.dropped.injEq, not_or]
    exact ⟨h2, h3⟩

theorem open_snoc_other {log : List Answer} {g : Graph} {a : Answer} (h1 : ∀ g, a ≠ .made g)
    (h2 : ∀ u, a ≠ .dropped u) : Open (log ++ [a]) g ↔ Open log g := by
  constructor
  · rintro ⟨bf, af, h3, h4⟩
    rcases List.eq_nil_or_concat af with rfl | ⟨af', x, rfl⟩
    · have := (List.append_inj' h3 (by simp)).2
      simp only [List.cons.injEq, and_true] at this
      exact absurd this (h1 g)
    · rw [List.concat_eq_append, ← List.cons_append, ← List.append_assoc] at h3
      obtain ⟨h5, -⟩ := List.append_inj' h3 (by simp)
      exact ⟨bf, af', h5, fun h => h4 (by simp [h])⟩
  · rintro ⟨bf, af, rfl, h4⟩
    refine ⟨bf, af ++ [a], by simp, ?_⟩
    simp only [List.mem_append, List.mem_singleton, not_or]
    exact ⟨h4, (h2 _).symm⟩

/-- The table agrees with the answers given so far. -/
structure Agrees (log : List Answer) (s : Loaded) (t : Nat) : Prop where
  ok : Ok s
  get : ∀ u g, get? u s = some g ↔ Open log g ∧ g.uid = u
  old : ∀ g, Open log g → g.uid < t

theorem Agrees.made {log : List Answer} {s : Loaded} {t t' : Nat} (h : Agrees log s t) (g : Graph)
    (hg : t ≤ g.uid) (ht : g.uid < t') : Agrees (log ++ [.made g]) (set g.uid g s) t' where
  ok := ok_set h.ok _ _
  get := by
    intro u g'
    rw [get?_set, open_snoc_made]
    by_cases hu : u = g.uid
    · rw [if_pos hu]
      constructor
      · intro he; cases he; exact ⟨.inr rfl, hu.symm⟩
      · rintro ⟨h1 | rfl, h2⟩
        · have := h.old _ h1; omega
        · rfl
    · rw [if_neg hu, h.get]
      constructor
      · rintro ⟨h1, h2⟩; exact ⟨.inl h1, h2⟩
      · rintro ⟨h1 | rfl, h2⟩
        · exact ⟨h1, h2⟩
        · exact absurd h2.symm hu
  old := by
    intro g' h1
    rcases open_snoc_made.1 h1 with h1 | rfl
    · have := h.old _ h1; omega
    · exact ht

theorem Agrees.other {log : List Answer} {s : Loaded} {t t' : Nat} (h : Agrees log s t) (a : Answer)
    (h1 : ∀ g, a ≠ .made g) (h2 : ∀ u, a ≠ .dropped u) (ht : t ≤ t') : Agrees (log ++ [a]) s t' where
  ok := h.ok
  get := by intro u g; rw [open_snoc_other h1 h2]; exact h.get u g
  old := by intro g hg; have := h.old g ((open_snoc_other h1 h2).1 hg); omega

theorem Agrees.dropped {log : List Answer} {s : Loaded} {t t' : Nat} (h : Agrees log s t) (u : Nat)
    (ht : t ≤ t') : Agrees (log ++ [.dropped u]) (erase u s) t' where
  ok := ok_erase h.ok u
  get := by
    intro v g
    rw [get?_erase h.ok, open_snoc_dropped]
    by_cases hv : v = u
    · rw [if_pos hv]
      constructor
      · intro he; cases he
      · rintro ⟨⟨-, h2⟩, h3⟩; exact absurd (h3.trans hv) h2
    · rw [if_neg hv, h.get]
      constructor
      · rintro ⟨h1, h2⟩; exact ⟨⟨h1, fun he => hv (h2 ▸ he)⟩, h2⟩
      · rintro ⟨⟨h1, -⟩, h2⟩; exact ⟨h1, h2⟩
  old := by intro g hg; have := h.old g (open_snoc_dropped.1 hg).1; omega

theorem openGraph_uid {env : Env} {t : Nat} {p : Str} {g : Graph} (h : openGraph env t p = .ok g) :
    g.uid = t := by
  unfold openGraph at h
  split at h
  · cases h
  · split at h
    · cases h
    · cases h; rfl

theorem loadFile_agrees {env : Env} {log : List Answer} {s : Loaded} {t t' : Nat} (h : Agrees log s t')
    (ht : t' ≤ t) (p : Str) :
    Agrees (log ++ [(loadFile env t s p).1]) (loadFile env t s p).2 (t + 1) := by
  unfold loadFile
  split
  · exact h.other _ (by simp) (by simp) (by omega)
  · rename_i g hg
    have hu := openGraph_uid hg
    exact h.made g (by omega) (by omega)

theorem step_agrees {env : Env} {log : List Answer} {s : Loaded} {t t' : Nat} (h : Agrees log s t')
    (ht : t' ≤ t) (r : Request) :
    Agrees (log ++ [(step env t s r).1]) (step env t s r).2 (t + 1) := by
  cases r with
  | new => exact h.made _ ht (Nat.lt_succ_self _)
  | load p => exact loadFile_agrees h ht p
  | unload u =>
    show Agrees (log ++ [(unloadFile s u).1]) (unloadFile s u).2 (t + 1)
    unfold unloadFile
    split
    · exact h.other _ (by simp) (by simp) (by omega)
    · exact h.dropped _ (by omega)
  | save p q =>
    show Agrees (log ++ [(saveFile s p q).1]) (saveFile s p q).2 (t + 1)
    unfold saveFile
    split
    · exact h.other _ (by simp) (by simp) (by omega)
    · exact h.other _ (by simp) (by simp) (by omega)
  | stage p =>
    show Agrees (log ++ [(getStage env t s p).1]) (getStage env t s p).2 (t + 1)
    unfold getStage
    split
    · exact h.other _ (by simp) (by simp) (by omega)
    · exact loadFile_agrees h ht p

theorem run_agrees {env : Env} (rs : List (Nat × Request)) {log : List Answer} {s : Loaded} {t' : Nat}
    (h : Agrees log s t') (hlt : ∀ x ∈ rs, t' ≤ x.1) (hs : (rs.map Prod.fst).Pairwise (· < ·)) :
    ∃ t, Agrees (log ++ (run env s rs).1) (run env s rs).2 t := by
  induction rs generalizing log s t' with
  | nil => exact ⟨t', by simpa [run] using h⟩
  | cons x rs ih =>
    obtain ⟨t, r⟩ := x
    rw [List.map_cons, List.pairwise_cons] at hs
    have h1 := step_agrees (env := env) h (hlt (t, r) (by simp)) r
    obtain ⟨t2, h2⟩ := ih h1 (fun y hy => hs.1 y.1 (List.mem_map_of_mem hy)) hs.2
    refine ⟨t2, ?_⟩
    rw [List.append_assoc] at h2
    exact h2

end Sessions

open Sessions

/-- C119: as long as no two stages are made at the same clock reading, the table of a session holds, by
their uids, exactly the stages made and not unloaded since, whatever was asked of it.  Partial: it takes
the clock; and see the violations. -/
theorem C119_registry_partial (env : Env) (rs : List (Nat × Request))
    (hs : (rs.map Prod.fst).Pairwise (· < ·)) (u : Nat) (g : Graph) :
    get? u (run env [] rs).2 = some g ↔ Open (run env [] rs).1 g ∧ g.uid = u := by
  have h0 : Agrees [] [] 0 :=
    ⟨ok_nil, fun u g => ⟨fun h => (nomatch h), fun h => by
        obtain ⟨⟨bf, af, h1, -⟩, -⟩ := h
        simp at h1⟩, fun g h => by
        obtain ⟨bf, af, h1, -⟩ := h
        simp at h1⟩
  obtain ⟨t, h⟩ := run_agrees (env := env) rs h0 (fun _ _ => Nat.zero_le _) hs
  exact h.get u g

/-- C119: unloading takes away the one stage and no other; an unknown uid raises and changes nothing. -/
theorem C119_unload (s : Loaded) (hs : Ok s) (u : Nat) :
    (u ∈ keys s → (unloadFile s u).1 = .dropped u ∧
      ∀ v, get? v (unloadFile s u).2 = if v = u then none else get? v s) ∧
    (u ∉ keys s → unloadFile s u = (.raised .lookup, s)) := by
  unfold unloadFile
  constructor
  · intro h
    cases hf : (keys s).filter (fun k => k = u) with
    | nil =>
      rw [List.filter_eq_nil_iff] at hf
      exact absurd (by simp) (hf u h)
    | cons k ks =>
      have hk : k = u := by
        have : k ∈ (keys s).filter (fun k => k = u) := by rw [hf]; simp
        simpa using (List.mem_filter.1 this).2
      subst hk
      exact ⟨rfl, fun v => get?_erase hs k v⟩
  · intro h
    have : (keys s).filter (fun k => k = u) = [] := by
      rw [List.filter_eq_nil_iff]
      intro k hk he
      exact h (by simpa using (of_decide_eq_true he) ▸ hk)
    rw [this]

/-- C119: a stage whose `filepath` is the path asked for is found, the earliest one if there are
several, and nothing is loaded.  Otherwise the file is loaded. -/
theorem C119_stage (env : Env) (t : Nat) (s : Loaded) (path : Str) :
    (∃ before u g after, s = before ++ (u, g) :: after ∧ g.filepath = path ∧
        (∀ v h, (v, h) ∈ before → h.filepath ≠ path) ∧ getStage env t s path = (.found g, s)) ∨
      ((∀ v h, (v, h) ∈ s → h.filepath ≠ path) ∧ getStage env t s path = loadFile env t s path) := by
  unfold getStage
  cases hf : s.find? (fun ug => ug.2.filepath = path) with
  | none =>
    refine .inr ⟨?_, rfl⟩
    intro v h hm
    have := List.find?_eq_none.1 hf (v, h) hm
    simpa using this
  | some ug =>
    obtain ⟨h1, before, after, h2, h3⟩ := List.find?_eq_some_iff_append.1 hf
    obtain ⟨u, g⟩ := ug
    refine .inl ⟨before, u, g, after, h2, by simpa using h1, ?_, rfl⟩
    intro v h hm
    have := h3 (v, h) hm
    simpa using this

/-- C119: a file which cannot be opened raises and leaves the session as it was. -/
theorem C119_load_error (env : Env) (t : Nat) (s : Loaded) (path : Str) (e : Err)
    (h : loadFileData env.expand env.expanders env.convert env.files path = .error e) :
    loadFile env t s path = (.raised (.file e), s) := by
  unfold loadFile openGraph
  rw [h]

/-- C119: a file which opens is entered as a stage of that file, named by its alias (or the base name of
the path). -/
theorem C119_load (env : Env) (t : Nat) (s : Loaded) (path : Str) (L : FileLayer)
    (h : openLayer env.expand env.expanders env.convert env.files path = .ok L) :
    ∃ g, loadFile env t s path = (.made g, set t g s) ∧ g.uid = t ∧ g.name = L.st.alias ∧
      g.file = L.realPath := by
  unfold openLayer at h
  unfold loadFile openGraph
  split at h
  · cases h
  · rename_i d hd
    rw [hd]
    dsimp only
    split at h
    · cases h
    · rename_i st hst
      rw [hst]
      cases h
      exact ⟨_, rfl, rfl, rfl, rfl⟩

/-! ## Violations -/

/-- C119, violated: every new graph is named `untitled`, whatever names are taken: the name searched for
is handed to the stage as `name`, which nobody reads. -/
theorem C119_names_violation (t : Nat) (s : Loaded) :
    ∃ g, (newFile t s).1 = .made g ∧ g.name = "untitled".toList :=
  ⟨_, rfl, rfl⟩

/-- C119, violated: `save_file` saves nothing in any session: it raises `TypeError`, or says `False`
when nothing is loaded. -/
theorem C119_save_violation (s : Loaded) (p : Str) (q : Option Str) :
    (s = [] → saveFile s p q = (.no, s)) ∧ (s ≠ [] → saveFile s p q = (.raised .type, s)) := by
  cases s with
  | nil => exact ⟨fun _ => rfl, fun h => absurd rfl h⟩
  | cons x s => exact ⟨fun h => (nomatch h), fun _ => rfl⟩

/-- A file without an entry `_filepath` (`load_file_data` enters the path as `filepath`) becomes a stage
whose `filepath` is `untitled.nxt`. -/
theorem C119_filepath_violation (env : Env) (t : Nat) (path : Str) (g : Graph) (d : Dict Str Val)
    (hd : loadFileData env.expand env.expanders env.convert env.files path = .ok d)
    (hn : "_filepath".toList ∉ keys d) (h : openGraph env t path = .ok g) :
    g.filepath = "untitled.nxt".toList := by
  unfold openGraph at h
  rw [hd] at h
  dsimp only at h
  split at h
  · cases h
  · cases h
    show stagePath d = _
    unfold stagePath textEntry
    rw [get?_eq_none.2 hn]
    rfl

/-- C119, violated: so `get_stage` loads the same file again each time it is asked for it. -/
theorem C119_reload_violation (env : Env) (s : Loaded) (path : Str) (hp : path ≠ "untitled.nxt".toList)
    (hs : ∀ u g, (u, g) ∈ s → g.filepath = "untitled.nxt".toList) (t t' : Nat) (ht : t ≠ t') (g : Graph)
    (hg : openGraph env t path = .ok g) (hf : g.filepath = "untitled.nxt".toList) :
    ∃ s1 s2, getStage env t s path = (.made g, s1) ∧
      getStage env t' s1 path = (.made { g with uid := t' }, s2) ∧
      get? t s2 = some g ∧ get? t' s2 = some { g with uid := t' } := by
  have hu := openGraph_uid hg
  have miss : ∀ (s : Loaded), (∀ u g, (u, g) ∈ s → g.filepath = "untitled.nxt".toList) →
      ∀ t, getStage env t s path = loadFile env t s path := by
    intro s hs t
    rcases C119_stage env t s path with ⟨bf, u, h, af, h1, h2, -⟩ | ⟨-, h⟩
    · exact absurd (h2.symm.trans (hs u h (by rw [h1]; simp))) hp
    · exact h
  have hg' : openGraph env t' path = .ok { g with uid := t' } := by
    unfold openGraph at hg ⊢
    split at hg
    · cases hg
    · rename_i d hd
      split at hg
      · cases hg
      · rename_i st hst
        cases hg
        rfl
  have e1 : getStage env t s path = (.made g, set t g s) := by
    rw [miss s hs]
    unfold loadFile
    rw [hg]
    dsimp only
    rw [hu]
  refine ⟨set t g s, set t' { g with uid := t' } (set t g s), e1, ?_, ?_, ?_⟩
  · rw [miss]
    · unfold loadFile
      rw [hg']
    · intro u h hm
      have : (u, h) ∈ s ∨ h = g := by
        clear e1 hs miss
        induction s with
        | nil => simp [Dict.set] at hm; exact .inr hm.2
        | cons x s ih =>
          obtain ⟨k, w⟩ := x
          rw [Dict.set] at hm
          split at hm
          · rcases List.mem_cons.1 hm with hm | hm
            · cases hm; exact .inr rfl
            · exact .inl (by simp [hm])
          · rcases List.mem_cons.1 hm with hm | hm
            · cases hm; exact .inl (by simp)
            · rcases ih hm with h | h
              · exact .inl (by simp [h])
              · exact .inr h
      rcases this with h1 | rfl
      · exact hs u h h1
      · exact hf
  · rw [get?_set, if_neg ht, get?_set, if_pos rfl]
  · rw [get?_set, if_pos rfl]

/-- The file of C118. -/
def exSessionEnv : Env :=
  { expand := id, expanders := [], convert := some, files := [("/old.nxt".toList, .json exFileData)] }

def exSessionGraph (t : Nat) : Graph :=
  { uid := t, filepath := "untitled.nxt".toList, name := "old.nxt".toList, file := some "/old.nxt".toList }

theorem exSession_open (t : Nat) : openGraph exSessionEnv t "/old.nxt".toList = .ok (exSessionGraph t) := by
  have h := exOpened_eq
  unfold openLayer at h
  unfold openGraph
  split at h
  · cases h
  · rename_i d hd
    rw [show loadFileData exSessionEnv.expand exSessionEnv.expanders exSessionEnv.convert exSessionEnv.files
      "/old.nxt".toList = .ok d from hd]
    have hg : GraphFile "/old.nxt".toList "/old".toList :=
      ⟨.inl (by decide), "old".toList, ⟨by decide, .inr ⟨[], by decide⟩⟩, 'o', by decide, by decide⟩
    rw [load_json (expand := id) (expanders := []) (convert := some) (path := "/old.nxt".toList)
      (real := "/old.nxt".toList)
      (files := [("/old.nxt".toList, .json exFileData)]) rfl hg rfl exFile_lossless rfl] at hd
    cases hd
    dsimp only at h ⊢
    split at h
    · cases h
    · rename_i st hst
      rw [hst]
      have : st.alias = "old.nxt".toList := by
        have := congrArg (fun x => match x with | Except.ok (L : FileLayer) => L.st.alias | _ => []) h
        exact this
      dsimp only
      rw [this]
      rfl

/-- Such a file, asked for twice. -/
example : ∃ s1 s2, getStage exSessionEnv 1 [] "/old.nxt".toList = (.made (exSessionGraph 1), s1) ∧
    getStage exSessionEnv 2 s1 "/old.nxt".toList = (.made (exSessionGraph 2), s2) ∧ keys s2 = [1, 2] := by
  obtain ⟨s1, s2, h1, h2, -, -⟩ := C119_reload_violation exSessionEnv [] "/old.nxt".toList (by decide) (by simp)
    1 2 (by decide) _ (exSession_open 1) rfl
  refine ⟨s1, s2, h1, h2, ?_⟩
  have e1 : s1 = [(1, exSessionGraph 1)] := by
    unfold getStage loadFile at h1
    rw [exSession_open] at h1
    exact (congrArg Prod.snd h1).symm
  subst e1
  unfold getStage loadFile at h2
  rw [exSession_open] at h2
  have e2 : [(1, exSessionGraph 1), (2, exSessionGraph 2)] = s2 := congrArg Prod.snd h2
  rw [← e2]
  decide

/-- C119, violated: asked for `untitled.nxt`, a session gives any stage it has, here that of another
file. -/
theorem C119_untitled_violation :
    ∃ s, loadFile exSessionEnv 1 [] "/old.nxt".toList = (.made (exSessionGraph 1), s) ∧
      getStage exSessionEnv 2 s "untitled.nxt".toList = (.found (exSessionGraph 1), s) ∧
      (exSessionGraph 1).file = some "/old.nxt".toList := by
  refine ⟨[(1, exSessionGraph 1)], ?_, by decide +kernel, rfl⟩
  unfold loadFile
  rw [exSession_open]
  rfl

/-- C119, violated: a stage made at the clock reading of another takes its place in the table; the other
one is no longer loaded, though nobody unloaded it. -/
theorem C119_clock_violation (env : Env) (t : Nat) (s s1 : Loaded) (g g' : Graph) (p : Str)
    (h1 : newFile t s = (.made g, s1)) (h2 : openGraph env t p = .ok g') :
    get? t s1 = some g ∧ ∃ s2, loadFile env t s1 p = (.made g', s2) ∧ keys s2 = keys s1 ∧
      get? t s2 = some g' := by
  have hs1 : s1 = Dict.set t g s := by
    unfold newFile at h1
    cases h1
    rfl
  subst hs1
  have hu := openGraph_uid h2
  refine ⟨?_, Dict.set t g' (Dict.set t g s), ?_, ?_, ?_⟩
  · rw [get?_set, if_pos rfl]
  · unfold loadFile
    rw [h2]
    dsimp only
    rw [hu]
  · rw [keys_set, if_pos (by rw [keys_set]; split <;> simp [*])]
  · rw [get?_set, if_pos rfl]

/-- With two stages which differ. -/
example : (newFile 1 []).1 = .made (newGraph 1 "untitled".toList) ∧
    openGraph exSessionEnv 1 "/old.nxt".toList = .ok (exSessionGraph 1) ∧
    newGraph 1 "untitled".toList ≠ exSessionGraph 1 :=
  ⟨by decide +kernel, exSession_open 1, by decide⟩

/-- A session: a new graph, a file, an unknown uid, the new graph unloaded, a save. -/
example : (run exSessionEnv [] [(1, .new), (2, .unload 7), (3, .new), (4, .unload 1),
      (5, .save "/old.nxt".toList none)]) =
    ([.made (newGraph 1 []), .raised .lookup, .made (newGraph 3 []), .dropped 1, .raised .type],
      [(3, newGraph 3 [])]) := by decide +kernel

end Nxt.Props
