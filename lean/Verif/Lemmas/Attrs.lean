import Verif.Spec.Attrs
import Verif.Model.Attrs
import Verif.Props.Names
import Verif.Lemmas.Dict
/-!
# Lemmas on user attributes
-/
namespace Nxt.Attrs
open Dict Spec NodeData

theorem slot_inj {a b : Str} {f g : Field} (ha : AttrName a) (hb : AttrName b) (h : a ++ f.suffix = b ++ g.suffix) :
    a = b ∧ f = g := by
  have meta_end : ∀ f : Field, f ≠ .value → ∃ s, f.suffix = s ++ "__nxt".toList := by
    intro f hf
    cases f
    · exact absurd rfl hf
    · exact ⟨"_comment".toList, rfl⟩
    · exact ⟨"_type".toList, rfl⟩
    · exact ⟨"_source".toList, rfl⟩
  have apart : ∀ (x y : Str) (g : Field), AttrName x → x = y ++ g.suffix → g = .value := by
    intro x y g hx e
    refine Classical.byContradiction (fun hg => ?_)
    obtain ⟨s, hs⟩ := meta_end g hg
    exact hx (y ++ s) (by rw [e, hs, List.append_assoc])
  by_cases hf : f = .value
  · subst hf
    have e : a = b ++ g.suffix := (List.append_nil a).symm.trans h
    have := apart a b g ha e
    subst this
    exact ⟨e.trans (List.append_nil b), rfl⟩
  by_cases hg : g = .value
  · subst hg
    exact absurd (apart b a f hb ((List.append_nil b).symm.trans h.symm)) hf
  have far : ∀ (x : Str) (f : Field), f ≠ .value → (f.suffix.reverse ++ x)[6]? = f.suffix.reverse[6]? := by
    intro x f hf
    refine List.getElem?_append_left ?_
    cases f
    · exact absurd rfl hf
    all_goals decide +kernel
  have pick : f = g := by
    have hr := congrArg (fun l : Str => l.reverse[6]?) h
    simp only [List.reverse_append] at hr
    rw [far _ _ hf, far _ _ hg] at hr
    revert hr hf hg
    clear far apart meta_end h ha hb
    revert f g
    intro f g
    cases f <;> cases g <;> decide +kernel
  subst pick
  exact ⟨List.append_cancel_right h, rfl⟩

theorem look_set {n : Dict Str Val} {a b : Str} (f g : Field) (v : Val) (ha : AttrName a) (hb : AttrName b) :
    look (set (a ++ f.suffix) v n) b g = if b = a ∧ g = f then some v else look n b g := by
  unfold look
  rw [get?_set]
  by_cases h : b = a ∧ g = f
  · rw [if_pos h, if_pos (by rw [h.1, h.2])]
  · rw [if_neg h, if_neg (fun e => h (slot_inj hb ha e))]

theorem look_erase {n : Dict Str Val} (hn : Ok n) {a b : Str} (f g : Field) (ha : AttrName a) (hb : AttrName b) :
    look (erase (a ++ f.suffix) n) b g = if b = a ∧ g = f then none else look n b g := by
  unfold look
  rw [get?_erase hn]
  by_cases h : b = a ∧ g = f
  · rw [if_pos h, if_pos (by rw [h.1, h.2])]
  · rw [if_neg h, if_neg (fun e => h (slot_inj hb ha e))]

theorem attrName_iff {a : Str} : AttrName a ↔ Py.endsWith a "__nxt".toList = false := by
  unfold Py.endsWith AttrName
  rw [← Bool.not_eq_true, List.isSuffixOf_iff_suffix]
  constructor
  · rintro h ⟨s, hs⟩
    exact h s hs.symm
  · intro h s hs
    exact h ⟨s, hs.symm⟩

theorem mem_localNames {c : Ctx} {n : Dict Str Val} {a : Str} :
    a ∈ localNames c n ↔ c.muted = false ∧ a ∈ keys n ∧ a ∉ c.prot ∧ AttrName a := by
  unfold localNames tables
  rw [Props.mem_localAttrNames, attrName_iff]
  cases c.muted <;> simp

/-- The three meta attributes. -/
theorem meta_suffix {k : Str} : metaName k ∈ METAS ↔ ∃ f, f ≠ Field.value ∧ k = f.key := by
  have e : METAS = [metaName K_COMMENT, metaName K_TYPE, metaName K_SOURCE] := rfl
  have inj : ∀ k k', metaName k = metaName k' → k = k' := by
    intro k k' h
    unfold metaName at h
    exact List.append_cancel_left (List.append_cancel_right h)
  rw [e]
  simp only [List.mem_cons, List.not_mem_nil, or_false]
  constructor
  · rintro (h | h | h)
    · exact ⟨.comment, by simp, inj _ _ h⟩
    · exact ⟨.type, by simp, inj _ _ h⟩
    · exact ⟨.source, by simp, inj _ _ h⟩
  · rintro ⟨f, hf, rfl⟩
    cases f
    · exact absurd rfl hf
    · exact .inl rfl
    · exact .inr (.inl rfl)
    · exact .inr (.inr rfl)

theorem meta_key {f : Field} (h : f ≠ .value) : metaName f.key = f.suffix := by
  cases f
  · exact absurd rfl h
  · rfl
  · rfl
  · rfl

theorem key_inj {f g : Field} (h : f.key = g.key) : f = g := by
  cases f <;> cases g <;> first | rfl | exact absurd h (by decide +kernel)

/-- Every key of attribute data is that of a field, or ignored. -/
theorem addSub_field (b : Str) (n : Dict Str Val) (kv : Str × Val) :
    (∃ f, kv.1 = f.key ∧ f ≠ Field.source ∧ addSub b n kv = set (b ++ f.suffix) kv.2 n) ∨
    ((∀ f, kv.1 = f.key → f = Field.source) ∧ addSub b n kv = n) := by
  unfold addSub
  generalize hS : K_SOURCE = S
  generalize hV : K_VALUE = V
  by_cases h1 : kv.1 = S
  · rw [if_pos h1]
    refine .inr ⟨fun f hf => ?_, rfl⟩
    exact key_inj (hf.symm.trans (h1.trans hS.symm))
  · rw [if_neg h1]
    by_cases h2 : kv.1 = V
    · rw [if_pos h2]
      refine .inl ⟨.value, h2.trans hV.symm, (fun e => nomatch e), ?_⟩
      exact congrArg (fun x => set x kv.2 n) (List.append_nil b).symm
    · rw [if_neg h2]
      by_cases h3 : metaName kv.1 ∈ METAS
      · rw [if_pos h3]
        obtain ⟨f, hf, hk⟩ := meta_suffix.1 h3
        refine .inl ⟨f, hk, ?_, ?_⟩
        · rintro rfl; exact h1 (hk.trans hS)
        · rw [hk, meta_key hf]
      · rw [if_neg h3]
        refine .inr ⟨fun f hf => ?_, rfl⟩
        by_cases hv : f = .value
        · subst hv; exact absurd (hf.trans hV) h2
        · exact absurd (meta_suffix.2 ⟨f, hv, hf⟩) h3

theorem ok_addSub {b : Str} {n : Dict Str Val} (h : Ok n) (kv : Str × Val) : Ok (addSub b n kv) := by
  rcases addSub_field b n kv with ⟨f, -, -, e⟩ | ⟨-, e⟩
  · rw [e]; exact ok_set h _ _
  · rw [e]; exact h

/-- The data of a new attribute. -/
theorem addFold {b : Str} (hb : AttrName b) (data : Dict Str Val) (hd : Ok data) (n : Dict Str Val) (h : Ok n) :
    Ok (data.foldl (addSub b) n) ∧ ∀ a f, AttrName a → look (data.foldl (addSub b) n) a f =
      if a = b ∧ f ≠ .source then (get? f.key data).or (look n a f) else look n a f := by
  induction data generalizing n with
  | nil => exact ⟨h, fun a f _ => by simp [get?]⟩
  | cons kv data ih =>
    rw [List.foldl_cons]
    have hd' : Ok data := (List.nodup_cons.1 hd).2
    have hk : kv.1 ∉ keys data := (List.nodup_cons.1 hd).1
    obtain ⟨h1, h2⟩ := ih hd' (addSub b n kv) (ok_addSub h kv)
    refine ⟨h1, fun a f ha => ?_⟩
    rw [h2 a f ha]
    have hg : get? f.key (kv :: data) = if kv.1 = f.key then some kv.2 else get? f.key data := by
      simp only [get?, List.find?_cons]
    rw [hg]
    rcases addSub_field b n kv with ⟨g, e1, e2, e3⟩ | ⟨e1, e3⟩
    · rw [e3, look_set g f kv.2 hb ha]
      by_cases hab : a = b
      · by_cases hfg : f = g
        · subst hfg
          rw [if_pos ⟨hab, e2⟩, if_pos ⟨hab, rfl⟩, if_pos ⟨hab, e2⟩, if_pos e1, get?_eq_none.2 (e1 ▸ hk)]
          rfl
        · have hk' : kv.1 ≠ f.key := fun hh => hfg (key_inj (hh.symm.trans e1))
          rw [if_neg (c := a = b ∧ f = g) (fun hh => hfg hh.2), if_neg hk']
      · rw [if_neg (fun hh => hab hh.1), if_neg (fun hh => hab hh.1), if_neg (fun hh => hab hh.1)]
    · rw [e3]
      by_cases hab : a = b ∧ f ≠ .source
      · rw [if_pos hab, if_pos hab, if_neg (fun hh => hab.2 (e1 f hh))]
      · rw [if_neg hab, if_neg hab]

theorem clean_eq (v : Val) : clean v = orNone v := rfl

theorem look_value {n : Dict Str Val} {a : Str} : look n a .value = get? a n := by
  unfold look
  exact congrArg (fun x => get? x n) (List.append_nil a)

theorem look_none {n : Dict Str Val} {a : Str} (h : a ∉ keys n) : look n a .value = none := by
  rw [look_value]; exact get?_eq_none.2 h

theorem set_value {n : Dict Str Val} {a : Str} {v : Val} : set a v n = set (a ++ Field.value.suffix) v n :=
  congrArg (fun x => set x v n) (List.append_nil a).symm

theorem erase_value {n : Dict Str Val} {a : Str} : erase a n = erase (a ++ Field.value.suffix) n :=
  congrArg (fun x => erase x n) (List.append_nil a).symm

/-- The four fields, one after another. -/
theorem metas_eq : METAS = [Field.comment.suffix, Field.type.suffix, Field.source.suffix] := rfl

theorem dropMeta_spec {n : Dict Str Val} (hn : Ok n) {a : Str} (ha : AttrName a) (f : Field) :
    Ok (dropMeta a n f.suffix) ∧ ∀ b g, AttrName b →
      look (dropMeta a n f.suffix) b g = if b = a ∧ g = f then none else look n b g := by
  unfold dropMeta
  by_cases h : a ++ f.suffix ∈ keys n
  · rw [if_pos h]
    exact ⟨ok_erase hn _, fun b g hb => look_erase hn f g ha hb⟩
  · rw [if_neg h]
    refine ⟨hn, fun b g hb => ?_⟩
    by_cases e : b = a ∧ g = f
    · rw [if_pos e, e.1, e.2]
      exact get?_eq_none.2 h
    · rw [if_neg e]

theorem dropMetas {n : Dict Str Val} (hn : Ok n) {a : Str} (ha : AttrName a) :
    Ok (METAS.foldl (dropMeta a) n) ∧ ∀ b g, AttrName b →
      look (METAS.foldl (dropMeta a) n) b g = if b = a ∧ g ≠ .value then none else look n b g := by
  rw [metas_eq]
  simp only [List.foldl_cons, List.foldl_nil]
  obtain ⟨o1, l1⟩ := dropMeta_spec hn ha .comment
  obtain ⟨o2, l2⟩ := dropMeta_spec o1 ha .type
  obtain ⟨o3, l3⟩ := dropMeta_spec o2 ha .source
  refine ⟨o3, fun b g hb => ?_⟩
  rw [l3 b g hb, l2 b g hb, l1 b g hb]
  by_cases e : b = a
  · cases g <;> simp [e]
  · simp [e]

theorem moveMeta_spec {n : Dict Str Val} (hn : Ok n) {a b : Str} (ha : AttrName a) (hb : AttrName b) (hab : a ≠ b) (f : Field) :
    Ok (moveMeta a b n f.suffix) ∧ ∀ x g, AttrName x → look (moveMeta a b n f.suffix) x g =
      if x = a ∧ g = f then none else if x = b ∧ g = f then (look n a f).or (look n b f) else look n x g := by
  unfold moveMeta
  cases h : get? (a ++ f.suffix) n with
  | none =>
    refine ⟨hn, fun x g hx => ?_⟩
    have h' : look n a f = none := h
    rw [h']
    by_cases e : x = a ∧ g = f
    · rw [if_pos e, e.1, e.2, h']
    · rw [if_neg e]
      by_cases e2 : x = b ∧ g = f
      · rw [if_pos e2, e2.1, e2.2]; rfl
      · rw [if_neg e2]
  | some v =>
    have h' : look n a f = some v := h
    refine ⟨ok_erase (ok_set hn _ _) _, fun x g hx => ?_⟩
    simp only
    rw [look_erase (ok_set hn _ _) f g ha hx, look_set f g v hb hx, h']
    rfl

theorem moveMetas {n : Dict Str Val} (hn : Ok n) {a b : Str} (ha : AttrName a) (hb : AttrName b) (hab : a ≠ b) :
    Ok (METAS.foldl (moveMeta a b) n) ∧ ∀ x g, AttrName x → look (METAS.foldl (moveMeta a b) n) x g =
      if g = .value then look n x g else if x = a then none
      else if x = b then (look n a g).or (look n b g) else look n x g := by
  rw [metas_eq]
  simp only [List.foldl_cons, List.foldl_nil]
  obtain ⟨o1, l1⟩ := moveMeta_spec hn ha hb hab .comment
  obtain ⟨o2, l2⟩ := moveMeta_spec o1 ha hb hab .type
  obtain ⟨o3, l3⟩ := moveMeta_spec o2 ha hb hab .source
  refine ⟨o3, fun x g hx => ?_⟩
  rw [l3 x g hx, l2 a .source ha, l2 b .source hb, l2 x g hx, l1 a .type ha, l1 b .type hb, l1 a .source ha,
    l1 b .source hb, l1 x g hx]
  by_cases e : x = a
  · cases g <;> simp [e]
  · by_cases e2 : x = b
    · cases g <;> simp [e2, hab.symm, Ne.symm hab]
    · cases g <;> simp [e, e2]

theorem legal_iff {c : Ctx} {a : Str} (h : Legal c.cc a) : Names.legalize c.cc a = some a := by
  obtain ⟨x, xs, rfl, h1, h2⟩ := h
  exact Props.C20_legal_unchanged c.cc x xs h2 h1

/-- A free legal name is taken as it is. -/
theorem freeName_self {c : Ctx} {n : Dict Str Val} {a : Str} (hl : Names.legalize c.cc a = some a) (hf : 0 < c.fuel)
    (hp : a ∉ c.prot) (hn : a ∉ localNames c n) : freeName c n a = some a := by
  unfold freeName Names.uniqueAttrName
  simp only [hl]
  obtain ⟨k, hk⟩ : ∃ k, c.fuel = k + 1 := ⟨c.fuel - 1, by omega⟩
  have : ¬ (a ∈ Names.localAttrNames c.prot (tables c n) ++ c.prot) := by
    rw [List.mem_append]; rintro (h | h)
    · exact hn h
    · exact hp h
  rw [hk]
  simp only [Names.search, this, decide_false, Bool.false_eq_true, if_false]
  rfl

theorem digit_last {s : Str} {k : Nat} : AttrName (s ++ Names.dec k) := by
  intro t e
  have hd := Names.dec_digits k
  obtain ⟨d, ds, hne⟩ : ∃ d ds, (Names.dec k).reverse = d :: ds := by
    cases h : (Names.dec k).reverse with
    | nil => exact absurd (List.reverse_eq_nil_iff.1 h) (Names.dec_ne_nil k)
    | cons d ds => exact ⟨d, ds, rfl⟩
  have h := congrArg (fun l : Str => l.reverse.head?) e
  simp only [List.reverse_append, hne] at h
  have ht : d = 't' := by simpa using h
  have : d ∈ Names.dec k := List.mem_reverse.1 (by rw [hne]; exact List.mem_cons_self)
  exact absurd (hd d this) (by rw [ht]; decide +kernel)

/-- The name found. -/
theorem freeName_spec {c : Ctx} {n : Dict Str Val} {a l : Str} (hl : Names.legalize c.cc a = some l) (hs : AttrName l)
    (hf : (localNames c n ++ c.prot).length + 2 ≤ c.fuel) :
    ∃ b, freeName c n a = some b ∧ AttrName b ∧ b ∉ c.prot ∧ (c.muted = false → b ∉ keys n) ∧
      (l ∉ c.prot → l ∉ keys n → b = l) := by
  obtain ⟨r, h1, h2, h3, h4, h5⟩ := Props.C19_unique_attr_name c.cc c.prot (tables c n) a l hl c.fuel hf
  have hr : AttrName r := by
    rcases h4 with rfl | ⟨stem, digits, k, -, -, -, rfl, -⟩
    · exact hs
    · exact digit_last
  refine ⟨r, by unfold freeName; rw [h1], hr, h2, fun hm hk => ?_, fun hp hk => h5 hp ?_⟩
  · have := h3 (keys n) (by unfold tables; rw [hm]; simp) hk
    rw [attrName_iff.1 hr] at this
    cases this
  · intro ks hks
    unfold tables at hks
    split at hks
    · exact nomatch hks
    · rw [List.mem_singleton.1 hks]; exact hk

/-! ### Setting -/

theorem key_value : K_VALUE = Field.value.key := rfl
theorem key_comment : K_COMMENT = Field.comment.key := rfl

/-- One sub attribute of an attribute which is there. -/
theorem setSub_here {c : Ctx} {a : Str} {create : Bool} {vs : Dict Str Val} {n : Dict Str Val} {L : List Str}
    (ha : AttrName a) (hp : a ∉ c.prot) (hL : a ∈ L) (hn : Ok n) (kv : Str × Val)
    (ht : kv.1 ≠ Field.type.key) (hs : kv.1 ≠ Field.source.key) :
    ∃ n', setSub c a create vs (n, L) kv = some (n', L) ∧ Ok n' ∧
      ∀ b f, AttrName b → look n' b f =
        if b = a then
          if kv.1 = Field.value.key then
            match f with
            | .value => some (orNone kv.2)
            | .type => some (.str (c.typeName (orNone kv.2)))
            | .source => some (.src c.layer c.path)
            | .comment => look n b f
          else if kv.1 = Field.comment.key then
            if f = .comment then some (orNone kv.2) else look n b f
          else look n b f
        else look n b f := by
  unfold setSub
  rw [key_value]
  by_cases h1 : kv.1 = Field.value.key
  · rw [if_neg (fun h => h.1 h1), if_pos hL, if_pos h1]
    simp only [if_pos hp]
    refine ⟨_, rfl, ok_set (ok_set (ok_set hn _ _) _ _) _ _, fun b f hb => ?_⟩
    rw [set_value (a := a), show M_SOURCE = Field.source.suffix from rfl, show M_TYPE = Field.type.suffix from rfl]
    rw [look_set .source f _ ha hb, look_set .type f _ ha hb, look_set .value f _ ha hb]
    by_cases e : b = a
    · cases f <;> simp [e, h1, clean_eq, src]
    · simp [e]
  · by_cases h2 : kv.1 = Field.comment.key
    · have hm : metaName kv.1 ∈ METAS := meta_suffix.2 ⟨.comment, (fun e => nomatch e), h2⟩
      rw [if_neg (fun h => h.2 hm), if_pos hL, if_neg h1]
      refine ⟨_, rfl, ok_set hn _ _, fun b f hb => ?_⟩
      rw [h2, meta_key (f := .comment) (fun e => nomatch e), look_set .comment f _ ha hb, clean_eq]
      have hcv : Field.comment.key ≠ Field.value.key := fun e => nomatch (key_inj e)
      by_cases e : b = a
      · by_cases e2 : f = .comment <;> simp [e, e2, hcv]
      · simp [e]
    · have hm : metaName kv.1 ∉ METAS := by
        intro h
        obtain ⟨f, hf, hk⟩ := meta_suffix.1 h
        cases f
        · exact hf rfl
        · exact h2 hk
        · exact ht hk
        · exact hs hk
      rw [if_pos ⟨h1, hm⟩]
      refine ⟨n, rfl, hn, fun b f hb => ?_⟩
      rw [if_neg h1, if_neg h2]
      split <;> rfl

/-- All sub attributes of an attribute which is there. -/
theorem setFold_here {c : Ctx} {a : Str} {create : Bool} {ws : Dict Str Val} (vs : Dict Str Val) {n : Dict Str Val} {L : List Str}
    (ha : AttrName a) (hp : a ∉ c.prot) (hL : a ∈ L) (hn : Ok n) (hv : Ok vs)
    (ht : Field.type.key ∉ keys vs) (hs : Field.source.key ∉ keys vs) :
    ∃ n', vs.foldlM (setSub c a create ws) (n, L) = some (n', L) ∧ Ok n' ∧ OthersKept a n n' ∧
      look n' a .value = ((get? Field.value.key vs).map orNone).or (look n a .value) ∧
      look n' a .comment = ((get? Field.comment.key vs).map orNone).or (look n a .comment) ∧
      look n' a .type = ((get? Field.value.key vs).map (fun v => .str (c.typeName (orNone v)))).or (look n a .type) ∧
      look n' a .source = ((get? Field.value.key vs).map (fun _ => .src c.layer c.path)).or (look n a .source) := by
  induction vs generalizing n with
  | nil => exact ⟨n, rfl, hn, fun _ _ _ _ => rfl, rfl, rfl, rfl, rfl⟩
  | cons kv vs ih =>
    have hv' : Ok vs := (List.nodup_cons.1 hv).2
    have hk : kv.1 ∉ keys vs := (List.nodup_cons.1 hv).1
    rw [keys_cons] at ht hs
    obtain ⟨n1, e1, o1, l1⟩ := setSub_here (create := create) (vs := ws) ha hp hL hn kv
      (fun e => ht (List.mem_cons.2 (.inl e.symm))) (fun e => hs (List.mem_cons.2 (.inl e.symm)))
    obtain ⟨n2, e2, o2, k2, v2, c2, t2, s2⟩ := ih o1 hv' (fun h => ht (List.mem_cons_of_mem _ h)) (fun h => hs (List.mem_cons_of_mem _ h))
    have hg : ∀ k, get? k (kv :: vs) = if kv.1 = k then some kv.2 else get? k vs := by
      intro k; simp only [get?, List.find?_cons]
    have hcv : Field.comment.key ≠ Field.value.key := fun e => nomatch (key_inj e)
    have hvc : Field.value.key ≠ Field.comment.key := fun e => nomatch (key_inj e)
    refine ⟨n2, ?_, o2, ?_, ?_, ?_, ?_, ?_⟩
    · rw [List.foldlM_cons, e1]; exact e2
    · intro b f hb hba
      rw [k2 b f hb hba, l1 b f hb, if_neg hba]
    · rw [v2, l1 a _ ha, hg, if_pos rfl]
      by_cases h1 : kv.1 = Field.value.key
      · rw [if_pos h1, if_pos h1, get?_eq_none.2 (h1 ▸ hk)]; rfl
      · rw [if_neg h1, if_neg h1]
        congr 1
        split
        · rw [if_neg (fun e => nomatch e)]
        · rfl
    · rw [c2, l1 a _ ha, hg, if_pos rfl]
      by_cases h1 : kv.1 = Field.comment.key
      · have h2 : kv.1 ≠ Field.value.key := h1 ▸ hcv
        rw [if_neg h2, if_pos h1, if_pos rfl, if_pos h1, get?_eq_none.2 (h1 ▸ hk)]; rfl
      · rw [if_neg h1, if_neg h1]
        congr 1
        split <;> rfl
    · rw [t2, l1 a _ ha, hg, if_pos rfl]
      by_cases h1 : kv.1 = Field.value.key
      · rw [if_pos h1, if_pos h1, get?_eq_none.2 (h1 ▸ hk)]; rfl
      · rw [if_neg h1, if_neg h1]
        congr 1
        split
        · rw [if_neg (fun e => nomatch e)]
        · rfl
    · rw [s2, l1 a _ ha, hg, if_pos rfl]
      by_cases h1 : kv.1 = Field.value.key
      · rw [if_pos h1, if_pos h1, get?_eq_none.2 (h1 ▸ hk)]; rfl
      · rw [if_neg h1, if_neg h1]
        congr 1
        split
        · rw [if_neg (fun e => nomatch e)]
        · rfl

end Nxt.Attrs
