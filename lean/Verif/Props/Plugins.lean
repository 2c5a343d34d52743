import Verif.Spec.Plugins
import Verif.Lemmas.Disk
import Verif.Props.Fallbacks
/-!
# Property C131: plugins
-/
namespace Nxt.Props
open Spec Plugins Py

namespace PluginFiles
variable {M : Type}

theorem moduleName_iff {f : Str} (hf : '/' ∉ f) (n : Str) : ModuleName f n ↔ (Disk.splitext f).1 = n := by
  have hb : FilePaths.basename f = f := by
    unfold FilePaths.basename
    cases h : rpartition? ['/'] f with
    | none => rfl
    | some p =>
      obtain ⟨h1, _⟩ := rpartition?_char_some h
      exact absurd (by rw [h1]; simp) hf
  unfold Disk.splitext
  rw [hb]
  have hcut : ∀ {a b : Str}, '.' ∉ b → rpartition? ['.'] (a ++ '.' :: b) = some (a, b) := fun h => rpartition?_char h
  constructor
  · intro h
    cases h with
    | @cut _ ext h1 h2 =>
      rw [hcut h2]
      simp only
      rw [if_pos (by simpa [List.any_eq_true] using h1)]
      simp
    | whole h =>
      cases hr : rpartition? ['.'] f with
      | none => rfl
      | some p =>
        obtain ⟨h1, h2⟩ := rpartition?_char_some hr
        simp only
        rw [if_neg]
        intro hx
        obtain ⟨c, hc, hne⟩ := List.any_eq_true.1 hx
        exact absurd (h p.1 p.2 h1 c hc) (by simpa using hne)
  · rintro rfl
    cases hr : rpartition? ['.'] f with
    | none =>
      refine .whole fun a b e => ?_
      have : '.' ∉ f := rpartition?_char_none_iff.1 hr
      exact absurd (by rw [e]; simp) this
    | some p =>
      obtain ⟨h1, h2⟩ := rpartition?_char_some hr
      simp only
      split
      · rename_i hx
        obtain ⟨c, hc, hne⟩ := List.any_eq_true.1 hx
        have : f.take (f.length - (p.2.length + 1)) = p.1 := by
          rw [h1]; simp
        rw [this]
        have h3 : ModuleName (p.1 ++ '.' :: p.2) p.1 := .cut ⟨c, hc, by simpa using hne⟩ h2
        rw [← h1] at h3; exact h3
      · rename_i hx
        refine .whole fun a b e c hc => ?_
        have hall : ∀ c ∈ p.1, c = '.' := by
          intro c hc
          refine Decidable.byContradiction fun hne => hx (List.any_eq_true.2 ⟨c, hc, by simpa using hne⟩)
        rw [e] at h1
        rcases List.append_eq_append_iff.1 h1 with ⟨s, h4, h5⟩ | ⟨s, h4, h5⟩
        · exact hall c (by rw [h4]; simp [hc])
        · cases s with
          | nil => exact hall c (by rw [h4, List.append_nil] at hc; exact hc)
          | cons x s =>
            exfalso
            have h6 : p.2 = s ++ '.' :: b := by
              simpa using (List.cons.inj h5).2
            exact h2 (by rw [h6]; simp)

/-- What loading the files of one directory does. -/
theorem loadFiles_spec (find : Str → Found M) (fs : List Str) (l : Loaded M) :
    ∃ r, (loadFiles find fs l).1 = l ++ r ∧
      (∀ p ∈ r, p.1 ∉ l.map (·.1) ∧ (∃ f ∈ fs, (Disk.splitext f).1 = p.1) ∧ find p.1 = .good p.2) ∧
      (r.map (·.1)).Nodup ∧
      ((loadFiles find fs l).2 = false → ∀ f ∈ fs, (Disk.splitext f).1 ∉ l.map (·.1) →
        find (Disk.splitext f).1 = .missing ∨ ∃ m, ((Disk.splitext f).1, m) ∈ r) ∧
      ((loadFiles find fs l).2 = true → ∃ f ∈ fs, (Disk.splitext f).1 ∉ l.map (·.1) ∧ find (Disk.splitext f).1 = .broken) := by
  induction fs generalizing l with
  | nil => exact ⟨[], by simp [loadFiles], by simp, by simp, by simp, by simp [loadFiles]⟩
  | cons f fs ih =>
    rw [loadFiles]
    split
    · rename_i hin
      obtain ⟨r, h1, h2, h3, h4, h5⟩ := ih l
      refine ⟨r, h1, fun p hp => ?_, h3, fun hr g hg hn => ?_, fun hr => ?_⟩
      · obtain ⟨a, ⟨g, hg, hgn⟩, c⟩ := h2 p hp
        exact ⟨a, ⟨g, List.mem_cons_of_mem _ hg, hgn⟩, c⟩
      · rcases List.mem_cons.1 hg with rfl | hg
        · exact absurd hin hn
        · exact h4 hr g hg hn
      · obtain ⟨g, hg, hx⟩ := h5 hr
        exact ⟨g, List.mem_cons_of_mem _ hg, hx⟩
    · rename_i hin
      cases hf : find (Disk.splitext f).1 with
      | missing =>
        obtain ⟨r, h1, h2, h3, h4, h5⟩ := ih l
        refine ⟨r, h1, fun p hp => ?_, h3, fun hr g hg hn => ?_, fun hr => ?_⟩
        · obtain ⟨a, ⟨g, hg, hgn⟩, c⟩ := h2 p hp
          exact ⟨a, ⟨g, List.mem_cons_of_mem _ hg, hgn⟩, c⟩
        · rcases List.mem_cons.1 hg with rfl | hg
          · exact .inl hf
          · exact h4 hr g hg hn
        · obtain ⟨g, hg, hx⟩ := h5 hr
          exact ⟨g, List.mem_cons_of_mem _ hg, hx⟩
      | broken =>
        refine ⟨[], by simp, by simp, by simp, ?_, fun _ => ⟨f, List.mem_cons_self, hin, hf⟩⟩
        intro hr
        cases hr
      | good m =>
        obtain ⟨r, h1, h2, h3, h4, h5⟩ := ih (l ++ [((Disk.splitext f).1, m)])
        simp only [List.map_append, List.map_cons, List.map_nil, List.mem_append, List.mem_singleton, not_or] at h2 h4 h5
        refine ⟨((Disk.splitext f).1, m) :: r, by rw [h1]; simp, fun p hp => ?_, ?_, fun hr g hg hn => ?_, fun hr => ?_⟩
        · rcases List.mem_cons.1 hp with rfl | hp
          · exact ⟨hin, ⟨f, List.mem_cons_self, rfl⟩, hf⟩
          · obtain ⟨a, ⟨g, hg, hgn⟩, c⟩ := h2 p hp
            exact ⟨a.1, ⟨g, List.mem_cons_of_mem _ hg, hgn⟩, c⟩
        · rw [List.map_cons, List.nodup_cons]
          refine ⟨fun hm => ?_, h3⟩
          obtain ⟨p, hp, he⟩ := List.mem_map.1 hm
          exact (h2 p hp).1.2 he
        · by_cases he : (Disk.splitext g).1 = (Disk.splitext f).1
          · exact .inr ⟨m, by rw [he]; exact List.mem_cons_self⟩
          · rcases List.mem_cons.1 hg with rfl | hg
            · exact absurd rfl he
            · rcases h4 hr g hg ⟨hn, he⟩ with h | ⟨m', h⟩
              · exact .inl h
              · exact .inr ⟨m', List.mem_cons_of_mem _ h⟩
        · obtain ⟨g, hg, hx, hb⟩ := h5 hr
          exact ⟨g, List.mem_cons_of_mem _ hg, hx.1, hb⟩

/-- No directory offers the module. -/
def Nowhere (ds : List (Dir M)) (name : Str) : Prop := ∀ d ∈ ds, ∀ m, ¬ OffersPlugin d name m

/-- No file is in a sub-folder. -/
def Flat (ds : List (Dir M)) : Prop := ∀ d ∈ ds, ∀ f ∈ d.files, '/' ∉ f

theorem loadPlugins_spec (ds : List (Dir M)) (hflat : Flat ds) (l : Loaded M) :
    ∃ r, (loadPlugins ds l).1 = l ++ r ∧ (r.map (·.1)).Nodup ∧
      (∀ p ∈ r, p.1 ∉ l.map (·.1) ∧ ∃ pre d post, ds = pre ++ d :: post ∧ OffersPlugin d p.1 p.2 ∧ Nowhere pre p.1) ∧
      ((loadPlugins ds l).2 = false → ∀ d ∈ ds, d.isDir = true → ∀ f ∈ d.files, ∀ name, ModuleName f name →
        name ∉ l.map (·.1) → (∃ m, (name, m) ∈ r) ∨ d.find name = .missing) ∧
      ((loadPlugins ds l).2 = true → ∃ pre d post, ds = pre ++ d :: post ∧ d.isDir = true ∧
        ∃ f ∈ d.files, ∃ name, ModuleName f name ∧ d.find name = .broken ∧ name ∉ l.map (·.1) ∧ Nowhere pre name) := by
  induction ds generalizing l with
  | nil => exact ⟨[], by simp [loadPlugins], by simp, by simp, by simp, by simp [loadPlugins]⟩
  | cons d ds ih =>
    have hfd : ∀ f ∈ d.files, '/' ∉ f := hflat d List.mem_cons_self
    have hfds : Flat ds := fun e he => hflat e (List.mem_cons_of_mem _ he)
    rw [loadPlugins]
    split
    · rename_i hdir
      obtain ⟨r, h1, h2, h3, h4, h5⟩ := loadFiles_spec d.find d.files l
      rcases hl : loadFiles d.find d.files l with ⟨l', raised⟩
      rw [hl] at h1 h4 h5
      simp only at h1 h4 h5
      subst h1
      have hown : ∀ p ∈ r, OffersPlugin d p.1 p.2 := fun p hp => by
        obtain ⟨_, ⟨f, hf, hn⟩, hg⟩ := h2 p hp
        exact ⟨hdir, ⟨f, hf, (moduleName_iff (hfd f hf) _).2 hn⟩, hg⟩
      cases raised with
      | true =>
        refine ⟨r, rfl, h3, fun p hp => ⟨(h2 p hp).1, [], d, ds, rfl, hown p hp, fun _ h => by cases h⟩, fun h => (by cases h), fun _ => ?_⟩
        obtain ⟨f, hf, hn, hb⟩ := h5 rfl
        exact ⟨[], d, ds, rfl, hdir, f, hf, _, (moduleName_iff (hfd f hf) _).2 rfl, hb, hn, fun _ h => by cases h⟩
      | false =>
        obtain ⟨r', g1, g2, g3, g4, g5⟩ := ih hfds (l ++ r)
        simp only [List.map_append, List.mem_append, not_or] at g3 g4 g5
        have hnot : ∀ name, name ∉ l.map (·.1) → name ∉ r.map (·.1) → ∀ m, ¬ OffersPlugin d name m := by
          rintro name hn hr m ⟨_, ⟨f, hf, hm⟩, hg⟩
          have e := (moduleName_iff (hfd f hf) _).1 hm
          rcases h4 rfl f hf (by rw [e]; exact hn) with h | ⟨m', h⟩
          · rw [e, hg] at h; cases h
          · rw [e] at h; exact hr (List.mem_map.2 ⟨_, h, rfl⟩)
        refine ⟨r ++ r', by dsimp only; rw [g1, List.append_assoc], ?_, fun p hp => ?_, fun hr e he hed f hf name hm hn => ?_, fun hr => ?_⟩
        · rw [List.map_append, List.nodup_append]
          refine ⟨h3, g2, fun a ha b hb e => ?_⟩
          subst e
          obtain ⟨p, hp, he⟩ := List.mem_map.1 hb
          exact (g3 p hp).1.2 (by rw [he]; exact ha)
        · rcases List.mem_append.1 hp with hp | hp
          · exact ⟨(h2 p hp).1, [], d, ds, rfl, hown p hp, fun _ h => by cases h⟩
          · obtain ⟨⟨a, b⟩, pre, e, post, he, ho, hno⟩ := g3 p hp
            refine ⟨a, d :: pre, e, post, by rw [he]; rfl, ho, fun x hx => ?_⟩
            rcases List.mem_cons.1 hx with rfl | hx
            · exact hnot _ a b
            · exact hno x hx
        · by_cases hin : name ∈ r.map (·.1)
          · obtain ⟨p, hp, rfl⟩ := List.mem_map.1 hin
            exact .inl ⟨p.2, List.mem_append_left _ hp⟩
          · rcases List.mem_cons.1 he with rfl | he
            · have e' := (moduleName_iff (hfd f hf) _).1 hm
              rcases h4 rfl f hf (by rw [e']; exact hn) with h | ⟨m', h⟩
              · rw [e'] at h; exact .inr h
              · rw [e'] at h; exact .inl ⟨m', List.mem_append_left _ h⟩
            · rcases g4 hr e he hed f hf name hm ⟨hn, hin⟩ with ⟨m, h⟩ | h
              · exact .inl ⟨m, List.mem_append_right _ h⟩
              · exact .inr h
        · obtain ⟨pre, e, post, he, hed, f, hf, name, hm, hb, hn, hno⟩ := g5 hr
          refine ⟨d :: pre, e, post, by rw [he]; rfl, hed, f, hf, name, hm, hb, hn.1, fun x hx => ?_⟩
          rcases List.mem_cons.1 hx with rfl | hx
          · exact hnot _ hn.1 hn.2
          · exact hno x hx
    · rename_i hdir
      obtain ⟨r', g1, g2, g3, g4, g5⟩ := ih hfds l
      have hnot : ∀ name m, ¬ OffersPlugin d name m := fun _ _ h => hdir h.1
      refine ⟨r', g1, g2, fun p hp => ?_, fun hr e he hed f hf name hm hn => ?_, fun hr => ?_⟩
      · obtain ⟨a, pre, e, post, he, ho, hno⟩ := g3 p hp
        refine ⟨a, d :: pre, e, post, by rw [he]; rfl, ho, fun x hx => ?_⟩
        rcases List.mem_cons.1 hx with rfl | hx
        · exact hnot _
        · exact hno x hx
      · rcases List.mem_cons.1 he with rfl | he
        · exact absurd hed hdir
        · exact g4 hr e he hed f hf name hm hn
      · obtain ⟨pre, e, post, he, hed, f, hf, name, hm, hb, hn, hno⟩ := g5 hr
        refine ⟨d :: pre, e, post, by rw [he]; rfl, hed, f, hf, name, hm, hb, hn, fun x hx => ?_⟩
        rcases List.mem_cons.1 hx with rfl | hx
        · exact hnot _
        · exact hno x hx

theorem loadPlugins_append (a b : List (Dir M)) (l : Loaded M) :
    loadPlugins (a ++ b) l = if (loadPlugins a l).2 then loadPlugins a l else loadPlugins b (loadPlugins a l).1 := by
  induction a generalizing l with
  | nil => rfl
  | cons d a ih =>
    rw [List.cons_append, loadPlugins, loadPlugins]
    split
    · rcases loadFiles d.find d.files l with ⟨l', raised⟩
      cases raised with
      | true => rfl
      | false => exact ih l'
    · exact ih l

end PluginFiles
open PluginFiles

/-! ## C131 -/

/-- C131: if no module raises, a module is loaded exactly if some directory offers it, and it is the one of the first such
directory; none is loaded twice. -/
theorem C131_loaded {M : Type} (ds : List (Dir M)) (hflat : ∀ d ∈ ds, ∀ f ∈ d.files, '/' ∉ f)
    (hok : (loadPlugins ds []).2 = false) :
    ((loadPlugins ds []).1.map (·.1)).Nodup ∧
    ∀ name m, (name, m) ∈ (loadPlugins ds []).1 ↔
      ∃ pre d post, ds = pre ++ d :: post ∧ OffersPlugin d name m ∧ ∀ d' ∈ pre, ∀ m', ¬ OffersPlugin d' name m' := by
  obtain ⟨r, h1, h2, h3, h4, _⟩ := loadPlugins_spec ds hflat []
  rw [h1, List.nil_append]
  refine ⟨h2, fun name m => ⟨fun h => (h3 _ h).2, ?_⟩⟩
  rintro ⟨pre, d, post, he, ho, hno⟩
  obtain ⟨hd, ⟨f, hf, hm⟩, hg⟩ := ho
  rcases h4 hok d (by rw [he]; simp) hd f hf name hm (by simp) with ⟨m', h⟩ | h
  · obtain ⟨_, pre', d', post', he', ho', hno'⟩ := h3 _ h
    have : m' = m := by
      rw [he] at he'
      rcases List.append_eq_append_iff.1 he' with ⟨s, e1, e2⟩ | ⟨s, e1, e2⟩
      · cases s with
        | nil =>
          have := (List.cons.inj e2).1
          subst this
          have := ho'.2.2.symm.trans hg
          cases this; rfl
        | cons x s =>
          have hx : d ∈ pre' := by rw [e1]; simp [(List.cons.inj e2).1]
          exact absurd ⟨hd, ⟨f, hf, hm⟩, hg⟩ (hno' d hx m)
      · cases s with
        | nil =>
          have := (List.cons.inj e2).1
          subst this
          have := ho'.2.2.symm.trans hg
          cases this; rfl
        | cons x s =>
          have hx : d' ∈ pre := by rw [e1]; simp [(List.cons.inj e2).1]
          exact absurd ho' (hno d' hx m')
    rw [← this]; exact h
  · rw [hg] at h; cases h

/-- C131: loading raises exactly if a directory has a file for a module which raises and which no directory before offers. -/
theorem C131_raises {M : Type} (ds : List (Dir M)) (hflat : ∀ d ∈ ds, ∀ f ∈ d.files, '/' ∉ f) :
    (loadPlugins ds []).2 = true ↔
      ∃ pre d post, ds = pre ++ d :: post ∧ d.isDir = true ∧ ∃ f ∈ d.files, ∃ name, ModuleName f name ∧
        d.find name = .broken ∧ ∀ d' ∈ pre, ∀ m, ¬ OffersPlugin d' name m := by
  constructor
  · intro h
    obtain ⟨r, h1, h2, h3, h4, h5⟩ := loadPlugins_spec ds hflat []
    obtain ⟨pre, d, post, he, hd, f, hf, name, hm, hb, _, hno⟩ := h5 h
    exact ⟨pre, d, post, he, hd, f, hf, name, hm, hb, hno⟩
  · rintro ⟨pre, d, post, rfl, hd, f, hf, name, hm, hb, hno⟩
    rw [show pre ++ d :: post = (pre ++ [d]) ++ post by simp, loadPlugins_append]
    have hflat' : ∀ d' ∈ pre ++ [d], ∀ f ∈ d'.files, '/' ∉ f := fun d' h' => hflat d' (by
      rcases List.mem_append.1 h' with h' | h'
      · exact List.mem_append_left _ h'
      · rw [List.mem_singleton.1 h']; simp)
    obtain ⟨r, h1, h2, h3, h4, h5⟩ := loadPlugins_spec (pre ++ [d]) hflat' []
    cases hr : (loadPlugins (pre ++ [d]) []).2 with
    | true => exact hr
    | false =>
      exfalso
      rcases h4 hr d (by simp) hd f hf name hm (by simp) with ⟨m, h⟩ | h
      · obtain ⟨_, pre', d', post', he', ho', _⟩ := h3 _ h
        have hd' : d' ∈ pre ++ [d] := by rw [he']; simp
        rcases List.mem_append.1 hd' with hd' | hd'
        · exact hno d' hd' m ho'
        · rw [List.mem_singleton.1 hd'] at ho'
          have := ho'.2.2.symm.trans hb
          cases this
      · rw [hb] at h; cases h

/-- C131: loading again loads nothing. -/
theorem C131_again {M : Type} (ds : List (Dir M)) (hflat : ∀ d ∈ ds, ∀ f ∈ d.files, '/' ∉ f)
    (hok : (loadPlugins ds []).2 = false) :
    loadPlugins ds (loadPlugins ds []).1 = ((loadPlugins ds []).1, false) := by
  have hC := (C131_loaded ds hflat hok).2
  obtain ⟨r, h1, h2, h3, h4, h5⟩ := loadPlugins_spec ds hflat (loadPlugins ds []).1
  obtain ⟨r0, k1, k2, k3, k4, k5⟩ := loadPlugins_spec ds hflat []
  have hmem : ∀ d ∈ ds, ∀ name m, OffersPlugin d name m → name ∈ (loadPlugins ds []).1.map (·.1) := by
    rintro d hd name m ⟨a, ⟨f, hf, hm⟩, c⟩
    rcases k4 hok d hd a f hf name hm (by simp) with ⟨m', h⟩ | h
    · exact List.mem_map.2 ⟨_, by rw [k1]; exact h, rfl⟩
    · rw [c] at h; cases h
  have hr : r = [] := by
    cases r with
    | nil => rfl
    | cons p r =>
      exfalso
      obtain ⟨a, pre, d, post, he, ho, _⟩ := h3 p List.mem_cons_self
      exact a (hmem d (by rw [he]; simp) _ _ ho)
  have hnr : (loadPlugins ds (loadPlugins ds []).1).2 = false := by
    cases hx : (loadPlugins ds (loadPlugins ds []).1).2 with
    | false => rfl
    | true =>
      exfalso
      obtain ⟨pre, d, post, he, hd, f, hf, name, hm, hb, hn, hno⟩ := h5 hx
      have := (C131_raises ds hflat).2 ⟨pre, d, post, he, hd, f, hf, name, hm, hb, hno⟩
      rw [hok] at this; cases this
  refine Prod.ext ?_ hnr
  rw [h1, hr, List.append_nil]

/-- C131: a token is resolved by the first plugin which claims it, so that no directory takes one away from the directories
before it. -/
theorem C131_tokens {M N : Type} (toks : M → List (Resolve.Plugin N)) (pre post : List (Dir M))
    (hflat : ∀ d ∈ pre ++ post, ∀ f ∈ d.files, '/' ∉ f) (c : Str) (hc : c ≠ [])
    (hclaim : ∃ p ∈ tokensOf toks (loadPlugins pre []).1, p.detect c = true) :
    ∃ p ∈ tokensOf toks (loadPlugins pre []).1, p.detect c = true ∧
      Resolve.tokenKind (tokensOf toks (loadPlugins (pre ++ post) []).1) c = .plugin p := by
  have hpre : ∃ r, (loadPlugins (pre ++ post) []).1 = (loadPlugins pre []).1 ++ r := by
    rw [loadPlugins_append]
    split
    · exact ⟨[], by simp⟩
    · obtain ⟨r, h, _⟩ := loadPlugins_spec post (fun d hd => hflat d (List.mem_append_right _ hd)) (loadPlugins pre []).1
      exact ⟨r, h⟩
  obtain ⟨r, hr⟩ := hpre
  unfold Resolve.tokenKind
  rw [if_neg hc, hr]
  unfold tokensOf at *
  rw [List.flatMap_append, List.find?_append]
  cases hf : ((loadPlugins pre []).1.flatMap fun p => toks p.2).find? (fun p => p.detect c) with
  | none =>
    obtain ⟨p, hp, hd⟩ := hclaim
    exact absurd hd (by simpa using List.find?_eq_none.1 hf p hp)
  | some p => exact ⟨p, List.mem_of_find?_eq_some hf, by simpa using List.find?_some hf, rfl⟩

namespace PluginFiles

theorem fileAt_whole (P : Fallbacks.Past) (fuel : Nat) (c : Char) (pre u : Str)
    (h : IsToken (['$', '{'] ++ (c :: pre ++ u) ++ ['}'])) :
    Fallbacks.fileAt P fuel (c :: pre) (['$', '{'] ++ (c :: pre ++ u) ++ ['}']) =
      (Fallbacks.histAttr P fuel u).bind fun r => .ok (P.root (if r = [] ∧ u ≠ [] then Fallbacks.INVALID else r)) := by
  have hst : Tokens.standaloneAll (['$', '{'] ++ (c :: pre ++ u) ++ ['}']) = [['$', '{'] ++ (c :: pre ++ u) ++ ['}']] := by
    have := C02_standalone_exact (.tok (g := []) (rest := []) (by decide) h (.done (by decide)))
    simpa using this
  have hg : Tokens.getStandaloneTokens (['$', '{'] ++ (c :: pre ++ u) ++ ['}']) [c :: pre] =
      [['$', '{'] ++ (c :: pre ++ u) ++ ['}']] := by
    unfold Tokens.getStandaloneTokens
    rw [hst]
    simp [Tokens.PREFIX, startsWith]
  have hpt : partition? (c :: pre) (c :: pre ++ u) = some ([], u) := by
    simp only [List.cons_append, partition?]
    rw [if_pos (by simp)]
    simp
  unfold Fallbacks.fileAt Fallbacks.histFile
  simp only [hg]
  rw [if_neg (by simp)]
  simp only [List.foldl_cons, List.foldl_nil, Fallbacks.fileStep, Resolve.Out.bind, Resolve.content_token, hpt]
  cases Fallbacks.histAttr P fuel u with
  | deep => rfl
  | raised => rfl
  | ok r =>
    simp only [Resolve.Out.bind]
    rw [replace_whole _ (by simp)]

end PluginFiles

/-- C131: a file token gives the first of the files which the file list token with the same content gives, and nothing if
there are none.  `P d` is what is read at a depth; no value stands for a depth without active layers or an exception. -/
theorem C131_list (P : Nat → Option Fallbacks.Past) (fuel : Nat) {u : Str}
    (hf : IsToken ("${file::".toList ++ u ++ "}".toList)) (hl : IsToken ("${filelist::".toList ++ u ++ "}".toList))
    (first last : Nat) :
    let read := fun pre d v => match P d with
      | none => none
      | some P => match Fallbacks.fileAt P fuel pre v with
        | .ok w => some w
        | _ => none
    resolveFile (read "file::".toList) first last u =
      ((resolveFileList (read "filelist::".toList) first last u).head?).getD [] := by
  have e0 : ∀ pre, ['$', '{'] ++ pre ++ u ++ ['}'] = ['$', '{'] ++ (pre ++ u) ++ ['}'] := fun pre => by
    simp only [List.append_assoc]
  have hf' : IsToken (['$', '{'] ++ ("file::".toList ++ u) ++ ['}']) := by
    rw [← e0]; exact hf
  have hl' : IsToken (['$', '{'] ++ ("filelist::".toList ++ u) ++ ['}']) := by
    rw [← e0]; exact hl
  have key : ∀ P, Fallbacks.fileAt P fuel "file::".toList (['$', '{'] ++ ("file::".toList ++ u) ++ ['}']) =
      Fallbacks.fileAt P fuel "filelist::".toList (['$', '{'] ++ ("filelist::".toList ++ u) ++ ['}']) := by
    intro P
    have h1 := fileAt_whole P fuel 'f' "ile::".toList u hf'
    have h2 := fileAt_whole P fuel 'f' "ilelist::".toList u hl'
    exact h1.trans h2.symm
  intro read
  have hread : (fun d => read "file::".toList d (Tokens.makeTokenStr (Fallbacks.FILE ++ u))) =
      (fun d => read "filelist::".toList d (Tokens.makeTokenStr (Fallbacks.FILE_LIST ++ u))) := by
    funext d
    show (match P d with
      | none => none
      | some P => match Fallbacks.fileAt P fuel "file::".toList (['$', '{'] ++ ("file::".toList ++ u) ++ ['}']) with
        | .ok w => some w
        | _ => none) = _
    simp only [key]
    rfl
  unfold resolveFile resolveFileList FilePaths.withFallbacks
  simp only [hread]
  split
  · rename_i h; rw [h]; rfl
  · rename_i h; rw [h]; rfl

/-- C131: where the file is found in the first root, a path token and a file token give the same. -/
theorem C131_path (expand : Str → Str → Str) (exists? : Str → Bool) (root : Str) (roots : List Str) (dir cwd v : Str)
    (h : exists? (expand v root) = true) :
    resolvePath expand exists? (root :: roots) dir cwd v = FilePaths.rootFallback expand exists? (root :: roots) v (some dir) := by
  unfold resolvePath pathRoot FilePaths.rootFallback FilePaths.firstExisting
  simp [h]

/-- C131: likewise in the directory of the layer if there are no roots. -/
theorem C131_path_layer (expand : Str → Str → Str) (exists? : Str → Bool) (dir cwd v : Str) (hne : dir ≠ [])
    (hd : exists? dir = true) (h : exists? (expand v dir) = true) :
    resolvePath expand exists? [] dir cwd v = FilePaths.rootFallback expand exists? [] v (some dir) := by
  unfold resolvePath pathRoot FilePaths.rootFallback FilePaths.firstExisting
  simp [h, hd, hne]

/-- C131, what does not hold: if the file is in a later root only, the file token finds it and the path token names a file
which does not exist. -/
theorem C131_path_violation (expand : Str → Str → Str) (exists? : Str → Bool) (root : Str) (roots : List Str)
    (dir cwd v : Str) (h : exists? (expand v root) = false) (hl : ∃ r ∈ roots, exists? (expand v r) = true) :
    exists? (FilePaths.rootFallback expand exists? (root :: roots) v (some dir)) = true ∧
      exists? (resolvePath expand exists? (root :: roots) dir cwd v) = false := by
  refine ⟨?_, h⟩
  have key : ∀ rs : List Str, (∃ r ∈ rs, exists? (expand v r) = true) →
      ∃ full, FilePaths.firstExisting expand exists? v rs = some full ∧ exists? full = true := by
    intro rs
    induction rs with
    | nil => rintro ⟨r, hr, _⟩; cases hr
    | cons r rs ih =>
      rintro ⟨r', hr', he⟩
      unfold FilePaths.firstExisting
      by_cases hx : exists? (expand v r) = true
      · exact ⟨_, by simp [hx], hx⟩
      · rcases List.mem_cons.1 hr' with rfl | hr'
        · exact absurd he hx
        · obtain ⟨full, h1, h2⟩ := ih ⟨r', hr', he⟩
          exact ⟨full, by simp [hx, h1], h2⟩
  obtain ⟨full, h1, h2⟩ := key (root :: roots) (by
    obtain ⟨r, hr, he⟩ := hl
    exact ⟨r, List.mem_cons_of_mem _ hr, he⟩)
  unfold FilePaths.rootFallback
  rw [h1]; exact h2

/-! ### Examples -/

/-- A user directory with a plugin which is also built in, a file which is no plugin, and a missing site directory. -/
def examplePlugins : List (Dir Nat) :=
  [{ isDir := true, files := ["notes.txt".toList, "example.py".toList, "example.pyc".toList],
     find := fun n => if n = "example".toList then .good 1 else .missing },
   { isDir := false, files := [], find := fun _ => .missing },
   { isDir := true, files := ["__init__.py".toList, "example.py".toList, "file_fallbacks.py".toList],
     find := fun n => if n = "example".toList then .good 2 else if n = "file_fallbacks".toList then .good 3
       else if n = "__init__".toList then .good 4 else .missing }]

example : (loadPlugins examplePlugins []).1 =
    [("example".toList, 1), ("__init__".toList, 4), ("file_fallbacks".toList, 3)] ∧ (loadPlugins examplePlugins []).2 = false := by
  decide +kernel

/-- A user plugin which raises keeps the built-in ones from being loaded. -/
example : loadPlugins ({ isDir := true, files := ["bad.py".toList], find := fun n => if n = "bad".toList then .broken else .missing }
    :: examplePlugins) [] = ([], true) := by
  decide +kernel

example : ModuleName "a.b.py".toList "a.b".toList ∧ ModuleName ".hidden".toList ".hidden".toList ∧
    ¬ ModuleName ".hidden".toList [] := by
  refine ⟨(PluginFiles.moduleName_iff (by decide +kernel) _).2 (by decide +kernel),
    (PluginFiles.moduleName_iff (by decide +kernel) _).2 (by decide +kernel),
    fun h => absurd ((PluginFiles.moduleName_iff (by decide +kernel) _).1 h) (by decide +kernel)⟩

/-- A file in the second root. -/
example : FilePaths.rootFallback (fun v r => r ++ '/' :: v) (· = "/b/x".toList) ["/a".toList, "/b".toList] "x".toList
      (some "/c".toList) = "/b/x".toList ∧
    resolvePath (fun v r => r ++ '/' :: v) (· = "/b/x".toList) ["/a".toList, "/b".toList] "/c".toList "/".toList "x".toList =
      "/a/x".toList := by
  decide +kernel

/-- Two depths; the content of the tokens is met by the theorem about lists. -/
def examplePlaces (d : Nat) : Option Fallbacks.Past :=
  if d < 2 then some { examplePast with root := fun f => if d = 0 then [] else "/base/".toList ++ f } else none

example : IsToken ("${file::".toList ++ "x".toList ++ "}".toList) ∧ IsToken ("${filelist::".toList ++ "x".toList ++ "}".toList) :=
  ⟨atomic_isToken ⟨"file::x".toList, by decide +kernel, by decide +kernel, by decide +kernel⟩,
    atomic_isToken ⟨"filelist::x".toList, by decide +kernel, by decide +kernel, by decide +kernel⟩⟩

/-- The file is not found at the first depth; both fall back to the second. -/
example : resolveFile (fun d v => match examplePlaces d with
      | none => none
      | some P => match Fallbacks.fileAt P 2 "file::".toList v with
        | .ok w => some w
        | _ => none) 0 3 "x".toList = "/base/x".toList ∧
    resolveFileList (fun d v => match examplePlaces d with
      | none => none
      | some P => match Fallbacks.fileAt P 2 "filelist::".toList v with
        | .ok w => some w
        | _ => none) 0 3 "x".toList = ["/base/x".toList] := by
  decide +kernel

end Nxt.Props
