import Verif.Lemmas.Inherit
/-!
# Lemmas about the instance arc
-/
namespace Nxt.Inherit
open Dict NodeData Mro Spec

variable {g : Classes} {nodes : Dict Str Nat} {specs links : Nat → List Nat}

/-! ### Orders when the bases of one class change -/

theorem Each.imp_mem {α β : Type} {R S : α → β → Prop} {as : List α} {bs : List β} (h : Each R as bs)
    (hi : ∀ a ∈ as, ∀ b ∈ bs, R a b → S a b) : Each S as bs := by
  induction h with
  | nil => exact .nil
  | cons h _ ih =>
    exact .cons (hi _ List.mem_cons_self _ List.mem_cons_self h)
      (ih fun a ha b hb => hi a (List.mem_cons_of_mem _ ha) b (List.mem_cons_of_mem _ hb))

theorem withBases_self (g : Classes) (c : Nat) (bs : List Nat) : (withBases g c bs).bases c = bs := by
  simp [withBases]

theorem withBases_ne {c x : Nat} (bs : List Nat) (h : x ≠ c) : (withBases g c bs).bases x = g.bases x := by
  simp [withBases, h]

/-- A class which has `c` in its order keeps it. -/
theorem Lin.keeps {c : Nat} {bs : List Nat} {x : Nat} {l : List Nat} (h : Lin g x l) :
    ∀ l', c ∈ l → Lin (withBases g c bs) x l' → c ∈ l' := by
  refine Lin.induct (P := fun x l => ∀ l', c ∈ l → Lin (withBases g c bs) x l' → c ∈ l') ?_ h
  intro x l hl hb hx l' hc hl'
  by_cases hxc : x = c
  · subst hxc; exact hl'.self
  · rcases hx c hc with rfl | ⟨b, hbm, lb, hlb, hcb⟩
    · exact absurd rfl hxc
    · obtain ⟨lb1, h1, h2⟩ := hb b hbm
      obtain rfl := hlb.det h1
      obtain ⟨lb', m, h3, rfl, h4⟩ := hl'.base (b := b) (by rw [withBases_ne _ hxc]; exact hbm)
      exact List.mem_cons_of_mem _ (h4.subset (h2 lb' hcb h3))

/-- A class which does not have `c` in its order has the same order as before. -/
theorem Lin.unchanged {c : Nat} {bs : List Nat} {x : Nat} {l : List Nat} (h : Lin g x l) :
    c ∉ l → Lin (withBases g c bs) x l := by
  refine Lin.induct (P := fun x l => c ∉ l → Lin (withBases g c bs) x l) ?_ h
  intro x l hl hb _ hc
  have hxc : x ≠ c := by rintro rfl; exact hc hl.self
  obtain ⟨ls, m, h1, h2, rfl⟩ := hl.bases
  refine Lin.of_bases (ls := ls) ?_ (by rw [withBases_ne _ hxc]; exact h2)
  rw [withBases_ne _ hxc]
  refine h1.imp_mem fun b hbm lb hlb hR => ?_
  obtain ⟨lb', h3, h4⟩ := hb b hbm
  obtain rfl := hR.det h3
  exact h4 fun hcb => hc (List.mem_cons_of_mem _ ((merge_sublist h2 lb (by simp [hlb])).subset hcb))

/-- No class is below one of its bases. -/
theorem Lin.base_above {c b : Nat} {l lb : List Nat} (h : Lin g c l) (hb : b ∈ g.bases c) (hlb : Lin g b lb) :
    c ∉ lb := by
  intro hc
  obtain ⟨lb', m, h1, rfl, h2⟩ := h.base hb
  obtain rfl := hlb.det h1
  exact (List.nodup_cons.1 h.nodup).1 (h2.subset hc)

/-- If all orders exist after `b` became a base of `c`, then `b` was not below `c`. -/
theorem not_below {c b : Nat} {bs lb : List Nat} (hb : b ∈ bs) (hlb : Lin g b lb)
    {l : List Nat} (hc : Lin (withBases g c bs) c l) : c ∉ lb := by
  intro hcb
  have hbm : b ∈ (withBases g c bs).bases c := by rw [withBases_self]; exact hb
  obtain ⟨lb', m, h1, rfl, h2⟩ := hc.base hbm
  exact Lin.base_above hc hbm h1 (hlb.keeps lb' hcb h1)

/-- Orders only grow when dropped bases are above a new one. -/
theorem Lin.grows {c b : Nat} {bs lb : List Nat} (hbm : b ∈ bs) (hlb : Lin g b lb)
    (hdrop : ∀ d ∈ g.bases c, d ∈ bs ∨ d ∈ lb) (hall : ∃ l, Lin (withBases g c bs) c l) {x : Nat} {l : List Nat} (h : Lin g x l) :
    ∀ l', Lin (withBases g c bs) x l' → ∀ d ∈ l, d ∈ l' := by
  obtain ⟨lc, hlc⟩ := hall
  have hcb := not_below hbm hlb hlc
  have hlb' := hlb.unchanged (bs := bs) hcb
  refine Lin.induct (P := fun x l => ∀ l', Lin (withBases g c bs) x l' → ∀ d ∈ l, d ∈ l') ?_ h
  intro x l hl hb hx l' hl' d hd
  rcases hx d hd with rfl | ⟨y, hym, ly, hly, hdy⟩
  · exact hl'.self
  · obtain ⟨ly1, h1, h2⟩ := hb y hym
    obtain rfl := hly.det h1
    by_cases hxc : x = c
    · subst hxc
      rcases hdrop y hym with hy | hy
      · obtain ⟨ly', m, h3, rfl, h4⟩ := hl'.base (b := y) (by rw [withBases_self]; exact hy)
        exact List.mem_cons_of_mem _ (h4.subset (h2 ly' h3 d hdy))
      · obtain ⟨lb1, m, h3, rfl, h4⟩ := hl'.base (b := b) (by rw [withBases_self]; exact hbm)
        obtain rfl := hlb'.det h3
        obtain ⟨ly', h5, h6⟩ := hlb'.mem hy
        exact List.mem_cons_of_mem _ (h4.subset (h6.subset (h2 ly' h5 d hdy)))
    · obtain ⟨ly', m, h3, rfl, h4⟩ := hl'.base (b := y) (by rw [withBases_ne _ hxc]; exact hym)
      exact List.mem_cons_of_mem _ (h4.subset (h2 ly' h3 d hdy))

/-! ### `_safe_mro_add_base_class` -/

theorem weak_inner (P : Nat → Bool) (d : Nat) (es : List Nat) : ∀ weak : List Nat, weak.Nodup →
    es.foldl (fun weak e => if P e = true ∧ d ∈ weak then weak.erase d else weak) weak =
      if es.any P then weak.erase d else weak := by
  induction es with
  | nil => intro weak _; simp
  | cons e es ih =>
    intro weak hn
    rw [List.foldl_cons]
    by_cases hc : P e = true ∧ d ∈ weak
    · rw [if_pos hc, ih _ (hn.erase d)]
      have : (e :: es).any P = true := by simp [hc.1]
      rw [if_pos this]
      split
      · rw [List.erase_of_not_mem]
        rw [hn.mem_erase_iff]
        simp
      · rfl
    · rw [if_neg hc, ih _ hn]
      by_cases hd : d ∈ weak
      · have : P e = false := by
          cases hP : P e with
          | false => rfl
          | true => exact absurd ⟨hP, hd⟩ hc
        simp [this]
      · rw [List.erase_of_not_mem hd]
        simp

theorem weak_outer (Q : Nat → Bool) (ds : List Nat) : ∀ weak : List Nat, weak.Nodup →
    ds.foldl (fun weak d => if Q d then weak.erase d else weak) weak =
      weak.filter (fun x => !(decide (x ∈ ds) && Q x)) := by
  induction ds with
  | nil => intro weak _; exact (List.filter_eq_self.2 (by simp)).symm
  | cons d ds ih =>
    intro weak hn
    rw [List.foldl_cons]
    cases hQ : Q d with
    | true =>
      rw [if_pos rfl, ih _ (hn.erase d), hn.erase_eq_filter, List.filter_filter]
      apply List.filter_congr
      intro x _
      by_cases hx : x = d
      · subst hx; simp [hQ]
      · simp [hx]
    | false =>
      rw [if_neg (by simp), ih _ hn]
      apply List.filter_congr
      intro x _
      by_cases hx : x = d
      · subst hx; simp [hQ]
      · simp [hx]

/-- The bases kept: those in no order of a base of `b`. -/
def kept (g : Classes) (c b : Nat) : List Nat :=
  (g.bases c).filter (fun d => !((g.bases b).any (fun e => decide (d ∈ (g.mro e).getD []))))

theorem weakBases_eq {c : Nat} (b : Nat) (hn : (g.bases c).Nodup) : g.weakBases c b = kept g c b := by
  unfold Classes.weakBases kept
  have h1 : ∀ (ds weak : List Nat), weak.Nodup →
      ds.foldl (fun weak d => (g.bases b).foldl (fun weak e =>
        if d ∈ (g.mro e).getD [] ∧ d ∈ weak then weak.erase d else weak) weak) weak =
      ds.foldl (fun weak d => if (g.bases b).any (fun e => decide (d ∈ (g.mro e).getD [])) then weak.erase d else weak)
        weak := by
    intro ds
    induction ds with
    | nil => intro weak _; rfl
    | cons d ds ih =>
      intro weak hw
      rw [List.foldl_cons, List.foldl_cons]
      have := weak_inner (fun e => decide (d ∈ (g.mro e).getD [])) d (g.bases b) weak hw
      simp only [decide_eq_true_eq] at this
      rw [this]
      apply ih
      split
      · exact hw.erase d
      · exact hw
  rw [h1 _ _ hn, weak_outer _ _ _ hn]
  apply List.filter_congr
  intro x hx
  simp [hx]

theorem safeAddBase_eq {c b : Nat} (hn : (g.bases c).Nodup) (hb : b ∉ g.bases c) :
    g.safeAddBase c b = g.setBases c (kept g c b ++ [b]) := by
  unfold Classes.safeAddBase Classes.addBase
  rw [if_neg hb, weakBases_eq b hn]
  split
  · rename_i h; rw [h]
  · rfl

theorem Lin.bases_nodup {c : Nat} {l : List Nat} (h : Lin g c l) : (g.bases c).Nodup := by
  obtain ⟨ls, m, h1, h2, rfl⟩ := h.bases
  exact (merge_sublist h2 (g.bases c) (by simp)).nodup (merge_nodup h2)

/-! ### Tables -/

/-- Same classes and bases. -/
def SameBases (g g' : Classes) : Prop := g'.size = g.size ∧ g'.bases = g.bases

theorem Laid.same {g' : Classes} (h : Laid g nodes specs links) (hs : SameBases g g') : Laid g' nodes specs links := by
  obtain ⟨h1, h2⟩ := hs
  exact ⟨h.ok, h.inj, by rw [h2]; exact h.root, by rw [h1]; exact h.pos, by rw [h1, h2]; exact h.comp, h.link,
    by rw [h1, h2]; exact h.spec, h.nonempty, h.nodup, h.disjoint, by rw [h1, h2]; exact h.others⟩

theorem Lin.same {g' : Classes} {c : Nat} {l : List Nat} (hs : SameBases g g') : Lin g' c l ↔ Lin g c l := by
  unfold Lin; rw [hs.2]

theorem SameBases.refl (g : Classes) : SameBases g g := ⟨rfl, rfl⟩

theorem SameBases.trans {g g' g'' : Classes} (h : SameBases g g') (h' : SameBases g' g'') : SameBases g g'' :=
  ⟨h'.1.trans h.1, h'.2.trans h.2⟩

theorem overloadAttr_same (path : Str) (c b : Nat) (g : Classes) (a : Str) :
    SameBases g (overloadAttr path c b g a) := by
  unfold overloadAttr
  split
  · exact .refl g
  · exact ⟨rfl, rfl⟩

theorem overload_same (path : Str) (c b : Nat) (as : List Str) : ∀ g : Classes,
    SameBases g (as.foldl (overloadAttr path c b) g) := by
  induction as with
  | nil => intro g; exact .refl g
  | cons a as ih => intro g; exact (overloadAttr_same path c b g a).trans (ih _)

/-- The keys the instance arc may write. -/
def Touched (k : Str) : Prop := ∃ a ∈ OVERLOAD, k = a ∨ k = a ++ M_SOURCE

theorem overload_own (path : Str) (c b : Nat) (as : List Str) (hs : ∀ a ∈ as, a ∈ OVERLOAD) : ∀ (g : Classes) (d : Nat) (k : Str),
    (d ≠ c → (as.foldl (overloadAttr path c b) g).own d = g.own d) ∧
    (¬ Touched k → get? k ((as.foldl (overloadAttr path c b) g).own d) = get? k (g.own d)) := by
  induction as with
  | nil => intro g d k; exact ⟨fun _ => rfl, fun _ => rfl⟩
  | cons a as ih =>
    intro g d k
    have ih := ih (fun a ha => hs a (List.mem_cons_of_mem _ ha)) (overloadAttr path c b g a) d k
    rw [List.foldl_cons]
    have h1 : d ≠ c → (overloadAttr path c b g a).own d = g.own d := by
      intro hd
      unfold overloadAttr
      split
      · rfl
      · simp [setAttr, hd]
    have h2 : ¬ Touched k → get? k ((overloadAttr path c b g a).own d) = get? k (g.own d) := by
      intro hk
      have ha := hs a List.mem_cons_self
      have hk1 : k ≠ a := fun h => hk ⟨a, ha, Or.inl h⟩
      have hk2 : k ≠ a ++ M_SOURCE := fun h => hk ⟨a, ha, Or.inr h⟩
      unfold overloadAttr
      split
      · rfl
      · by_cases hd : d = c
        · subst hd
          simp only [setAttr, if_true]
          rw [get?_set, if_neg hk2, get?_set, if_neg hk1]
        · simp [setAttr, hd]
    exact ⟨fun hd => (ih.1 hd).trans (h1 hd), fun hk => (ih.2 hk).trans (h2 hk)⟩

theorem not_touched_instance : ¬ Touched A_INSTANCE := by
  rintro ⟨a, ha, h | h⟩
  · simp only [OVERLOAD, List.mem_cons, List.not_mem_nil, or_false] at ha
    rcases ha with rfl | rfl | rfl <;> revert h <;> decide +kernel
  · simp only [OVERLOAD, List.mem_cons, List.not_mem_nil, or_false] at ha
    rcases ha with rfl | rfl | rfl <;> revert h <;> decide +kernel

/-! ### The instance arc -/

/-- The orders of all nodes exist. -/
def Orders (g : Classes) (nodes : Dict Str Nat) : Prop := ∀ p c, (p, c) ∈ nodes → ∃ l, Lin g c l

/-- The order of a laid out node begins with it and its specs. -/
theorem Laid.shape (h : Laid g nodes specs links) {p : Str} {c : Nat} (hc : (p, c) ∈ nodes) {l : List Nat}
    (hl : Lin g c l) : ∃ m ls, l = c :: (specs c ++ m) ∧ Each (Lin g) (links c) ls ∧
      merge (List.replicate (specs c).length [0] ++ ls ++ [links c]) = some m := by
  obtain ⟨ls, m, h1, h2, rfl⟩ := hl.bases
  have hb := (h.comp p c hc).2.2
  have hs := h.spec p c hc
  -- the orders of the links
  have hex : ∀ ks : List Nat, (∀ b ∈ ks, b ∈ links c) → ∃ ls, Each (Lin g) ks ls := by
    intro ks
    induction ks with
    | nil => intro _; exact ⟨[], .nil⟩
    | cons b ks ih =>
      intro hk
      obtain ⟨ls', hls'⟩ := ih fun b hb => hk b (List.mem_cons_of_mem _ hb)
      obtain ⟨lb, _, h3, _, _⟩ := hl.base (b := b) (by rw [hb]; simp [hk b List.mem_cons_self])
      exact ⟨lb :: ls', .cons h3 hls'⟩
  obtain ⟨ls', hls'⟩ := hex (links c) fun _ h => h
  have hn : ∀ l ∈ ls', c ∉ l := by
    intro l hlm
    obtain ⟨b, hbm, hlb⟩ := hls'.mem_right hlm
    exact Lin.base_above hl (by rw [hb]; simp [hbm]) hlb
  cases hm : merge (List.replicate (specs c).length [0] ++ ls' ++ [links c]) with
  | some m' =>
    have := Laid.lin_comp h hc hls' hn hm
    exact ⟨m', ls', hl.det this, hls', hm⟩
  | none =>
    exfalso
    -- the merge of all would fail as well
    have hspec : Each (Lin g) (specs c) ((specs c).map (fun s => [s, 0])) := by
      have : ∀ l : List Nat, (∀ s ∈ l, s ∈ specs c) → Each (Lin g) l (l.map (fun s => [s, 0])) := by
        intro l
        induction l with
        | nil => intro _; exact .nil
        | cons s l ih =>
          intro hl
          exact .cons (Laid.lin_other h (hs s (hl s List.mem_cons_self)).2.2.1)
            (ih fun t ht => hl t (List.mem_cons_of_mem _ ht))
      exact this _ fun _ h => h
    have huniq : ∀ (as : List Nat) (xs ys : List (List Nat)), Each (Lin g) as xs → Each (Lin g) as ys → xs = ys := by
      intro as
      induction as with
      | nil => intro xs ys h1 h2; cases h1; cases h2; rfl
      | cons a as ih =>
        intro xs ys h1 h2
        cases h1 with
        | cons h1 h1' => cases h2 with
          | cons h2 h2' => rw [h1.det h2, ih _ _ h1' h2']
    have e := huniq _ _ _ h1 (hb ▸ hspec.append hls')
    rw [e, hb] at h2
    have := merge_specs (specs c) 0 ls' (links c) (h.nodup p c hc) (fun h0 => by have := (hs 0 h0).1; omega) (by
      intro s hsc
      refine ⟨fun hsl => ?_, fun l hlm hsl => ?_⟩
      · obtain ⟨q, hq⟩ := h.link p c hc s hsl
        exact (hs s hsc).2.2.2 q hq
      · obtain ⟨b, hbm, hlb⟩ := hls'.mem_right hlm
        obtain ⟨q, hq⟩ := h.link p c hc b hbm
        refine hn l hlm (Laid.owner h hc hsc hlb (h.comp q b hq).2.1 ?_ hsl)
        rintro rfl
        exact (hs b hsc).2.2.2 q hq)
    simp only [List.replicate_zero, List.nil_append, Nat.zero_add] at this
    rw [this, hm] at h2
    cases h2

/-- A node's own tables always decide first. -/
theorem Laid.local_first (h : Laid g nodes specs links) {p : Str} {c : Nat} (hc : (p, c) ∈ nodes) {l : List Nat}
    (hl : Lin g c l) {k : Str} {v : Val} (hv : firstTable k (tablesOf g specs c) = some v) :
    g.attr? c k = some v := by
  obtain ⟨m, _, rfl, _⟩ := Laid.shape h hc hl
  rw [attr?_of_lin h hc hl, hv]; rfl

/-- What is above a node, as the loop of `_safe_mro_add_base_class` finds it. -/
theorem above_iff (h : Laid g nodes specs links) {q : Str} {b : Nat} (hb : (q, b) ∈ nodes) {lb : List Nat}
    (hlb : Lin g b lb) : ∀ d, (g.bases b).any (fun e => decide (d ∈ (g.mro e).getD [])) = true ↔ d ∈ lb ∧ d ≠ b := by
  intro d
  rw [List.any_eq_true]
  constructor
  · rintro ⟨e, he, hd⟩
    obtain ⟨le, m, h1, rfl, h2⟩ := hlb.base he
    have he' := Laid.closed h b (h.comp q b hb).2.1 e he
    rw [(Laid.mro_iff h he').2 h1] at hd
    simp only [Option.getD_some, decide_eq_true_eq] at hd
    refine ⟨List.mem_cons_of_mem _ (h2.subset hd), ?_⟩
    rintro rfl
    exact Lin.base_above hlb he h1 hd
  · rintro ⟨hd, hne⟩
    obtain ⟨ls, m, h1, h2, h3⟩ := hlb.bases
    rw [h3] at hd
    rcases List.mem_cons.1 hd with rfl | hd
    · exact absurd rfl hne
    · obtain ⟨l, hl, hdl⟩ := (merge_mem h2 d).1 hd
      have : ∃ e ∈ g.bases b, ∃ le, Lin g e le ∧ d ∈ le := by
        rcases List.mem_append.1 hl with hl | hl
        · obtain ⟨e, he, hle⟩ := h1.mem_right hl
          exact ⟨e, he, l, hle, hdl⟩
        · rw [List.mem_singleton.1 hl] at hdl
          obtain ⟨le, _, hle⟩ := h1.mem_left hdl
          exact ⟨d, hdl, le, hle, hle.self⟩
      obtain ⟨e, he, le, hle, hde⟩ := this
      refine ⟨e, he, ?_⟩
      rw [(Laid.mro_iff h (Laid.closed h b (h.comp q b hb).2.1 e he)).2 hle]
      simpa using hde

theorem kept_eq (h : Laid g nodes specs links) {p q : Str} {c b : Nat} (hc : (p, c) ∈ nodes) (hb : (q, b) ∈ nodes)
    {lb : List Nat} (hlb : Lin g b lb) (hnb : c ∉ lb) :
    kept g c b = specs c ++ (links c).filter (fun d => decide (d = b ∨ d ∉ lb)) := by
  have hbc := (h.comp p c hc).2.2
  have habove := above_iff h hb hlb
  unfold kept
  rw [hbc, List.filter_append]
  congr 1
  · rw [List.filter_eq_self]
    intro s hs'
    rw [Bool.not_eq_true', ← Bool.not_eq_true, habove]
    rintro ⟨h1, h2⟩
    exact hnb (Laid.owner h hc hs' hlb (h.comp q b hb).2.1 (fun e => h2 e.symm) h1)
  · apply List.filter_congr
    intro d _
    rw [Bool.eq_iff_iff, Bool.not_eq_true', ← Bool.not_eq_true, habove]
    simp only [decide_eq_true_eq]
    constructor
    · intro hx
      by_cases hdb : d = b
      · exact Or.inl hdb
      · exact Or.inr fun hd => hx ⟨hd, hdb⟩
    · rintro (rfl | hx) ⟨h1, h2⟩
      · exact h2 rfl
      · exact hx h1

/-- Adding an instance source as a base: when it succeeds. -/
theorem safeAdd_step (h : Laid g nodes specs links) (ho : Orders g nodes) {p q : Str} {c b : Nat}
    (hc : (p, c) ∈ nodes) (hb : (q, b) ∈ nodes) {g' : Classes} (hs : g.safeAddBase c b = some g') :
    ∃ new, Laid g' nodes specs (fun d => if d = c then new else links d) ∧ Orders g' nodes ∧
      g'.own = g.own ∧ g'.size = g.size ∧
      (∀ x l l', Lin g x l → Lin g' x l' → ∀ d ∈ l, d ∈ l') ∧
      ((b ∈ links c ∧ new = links c) ∨ (b ∉ links c ∧ c ≠ b ∧ ∃ lb, Lin g b lb ∧
        new = (links c).filter (fun d => decide (d = b ∨ d ∉ lb)) ++ [b])) := by
  obtain ⟨lc, hlc⟩ := ho p c hc
  obtain ⟨lb, hlb⟩ := ho q b hb
  have hbc := (h.comp p c hc).2.2
  have hsplit : b ∈ g.bases c ↔ b ∈ links c := by
    rw [hbc, List.mem_append]
    constructor
    · rintro (hx | hx)
      · exact absurd hb ((h.spec p c hc b hx).2.2.2 q)
      · exact hx
    · exact Or.inr
  by_cases hm : b ∈ g.bases c
  · unfold Classes.safeAddBase at hs
    rw [if_pos hm] at hs
    cases hs
    refine ⟨links c, ?_, ho, rfl, rfl, ?_, Or.inl ⟨hsplit.1 hm, rfl⟩⟩
    · have : (fun d => if d = c then links c else links d) = links := by
        funext d; split
        · rename_i hd; rw [hd]
        · rfl
      rw [this]; exact h
    · intro x l l' h1 h2 d hd; rw [← h1.det h2]; exact hd
  · rw [safeAddBase_eq hlc.bases_nodup hm] at hs
    obtain ⟨rfl, hall⟩ := setBases_eq.1 hs
    -- the order of `c` afterwards
    have hlc' : ∃ l, Lin (withBases g c (kept g c b ++ [b])) c l := by
      have := hall c (h.comp p c hc).2.1
      obtain ⟨l, hl⟩ := Option.isSome_iff_exists.1 this
      exact ⟨l, _, hl⟩
    obtain ⟨lc', hlc'⟩ := hlc'
    have hnb := not_below (g := g) (b := b) (by simp) hlb hlc'
    -- what is above `b`
    have habove := above_iff h hb hlb
    have hkept := kept_eq h hc hb hlb hnb
    have hnew : kept g c b ++ [b] = specs c ++ ((links c).filter (fun d => decide (d = b ∨ d ∉ lb)) ++ [b]) := by
      rw [hkept, List.append_assoc]
    have hL := Laid.withBases h hc (new := (links c).filter (fun d => decide (d = b ∨ d ∉ lb)) ++ [b]) (by
      intro d hd
      rcases List.mem_append.1 hd with hd | hd
      · exact h.link p c hc d (List.mem_filter.1 hd).1
      · rw [List.mem_singleton.1 hd]; exact ⟨q, hb⟩)
    rw [← hnew] at hL
    have ho' : Orders (withBases g c (kept g c b ++ [b])) nodes := by
      intro p' c' hc'
      obtain ⟨l, hl⟩ := Option.isSome_iff_exists.1 (hall c' (h.comp p' c' hc').2.1)
      exact ⟨l, _, hl⟩
    refine ⟨_, hL, ho', rfl, rfl, ?_, Or.inr ⟨fun hx => hm (hsplit.2 hx), ?_, lb, hlb, rfl⟩⟩
    · intro x l l' h1 h2
      refine Lin.grows (b := b) (by simp) hlb ?_ ⟨lc', hlc'⟩ h1 l' h2
      intro d hd
      by_cases hk : d ∈ kept g c b
      · exact Or.inl (by simp [hk])
      · right
        unfold kept at hk
        rw [List.mem_filter] at hk
        have : (g.bases b).any (fun e => decide (d ∈ (g.mro e).getD [])) = true := by
          apply Classical.byContradiction
          intro hx
          apply hk
          refine ⟨hd, ?_⟩
          rw [Bool.not_eq_true] at hx
          rw [hx]; rfl
        exact ((habove d).1 this).1
    · rintro rfl
      exact hnb hlb.self

theorem firstTable_congr {g1 : Classes} {k : Str} (hk : ∀ d, get? k (g.own d) = get? k (g1.own d)) (c : Nat) :
    firstTable k (tablesOf g specs c) = firstTable k (tablesOf g1 specs c) := by
  unfold firstTable tablesOf
  rw [List.findSome?_cons, List.findSome?_cons, List.findSome?_map, List.findSome?_map, hk c]
  have : (get? k ∘ g.own) = (get? k ∘ g1.own) := by funext d; exact hk d
  rw [this]

/-- How a node is linked once its instance source is composed. -/
def InstLinks (g : Classes) (near inst : Option Nat) (c : Nat) (ls : List Nat) : Prop :=
  match inst with
  | none => ls = near.toList
  | some b => (near = some b ∧ ls = [b]) ∨ (near ≠ some b ∧ c ≠ b ∧ ∃ lb, Lin g b lb ∧
      (ls = near.toList ++ [b] ∨ ∃ p, near = some p ∧ p ∈ lb ∧ ls = [b]))

/-- What holds while the instance arc is composed. -/
structure InstDone (g1 : Classes) (nodes : Dict Str Nat) (specs : Nat → List Nat) (done : List (Str × Nat))
    (g : Classes) (links : Nat → List Nat) : Prop where
  size : g.size = g1.size
  own : ∀ d k, ¬ Touched k → get? k (g.own d) = get? k (g1.own d)
  laid : Laid g nodes specs links
  orders : Orders g nodes
  grown : ∀ p x l1 l, (p, x) ∈ nodes → Lin g1 x l1 → Lin g x l → ∀ d ∈ l1, d ∈ l
  yes : ∀ ns c, Names ns → (render ns, c) ∈ nodes → (render ns, c) ∈ done →
    InstLinks g (nearestAbove nodes ns) (instSource g1 nodes specs c) c (links c)
  no : ∀ ns c, Names ns → (render ns, c) ∈ nodes → (render ns, c) ∉ done → links c = (nearestAbove nodes ns).toList

theorem InstLinks.mono {g' : Classes} {near inst : Option Nat} {c : Nat} {ls : List Nat}
    (h : InstLinks g near inst c ls) (ho : ∀ b, inst = some b → ∃ l, Lin g' b l)
    (hg : ∀ x l l', Lin g x l → Lin g' x l' → ∀ d ∈ l, d ∈ l') : InstLinks g' near inst c ls := by
  cases inst with
  | none => exact h
  | some b =>
    rcases h with h | ⟨h1, h2, lb, hlb, h3⟩
    · exact Or.inl h
    · obtain ⟨lb', hlb'⟩ := ho b rfl
      refine Or.inr ⟨h1, h2, lb', hlb', ?_⟩
      rcases h3 with h3 | ⟨p, h4, h5, h6⟩
      · exact Or.inl h3
      · exact Or.inr ⟨p, h4, hg b lb lb' hlb hlb' p h5, h6⟩

theorem instSource_mem {g1 : Classes} {c b : Nat} (h : instSource g1 nodes specs c = some b) : ∃ q, (q, b) ∈ nodes := by
  unfold instSource at h
  split at h
  · split at h
    · cases h
    · exact ⟨_, mem_of_get? h⟩
  · cases h

theorem instSource_eq {g1 : Classes} {c : Nat} {v : Val} (hv : firstTable A_INSTANCE (tablesOf g1 specs c) = some v) :
    instSource g1 nodes specs c = match v with
      | .str ip => if ip = ['/'] then none else get? ip nodes
      | _ => none := by
  unfold instSource
  have : firstTable "_instance".toList (tablesOf g1 specs c) = some v := hv
  rw [this]
  cases v <;> rfl

/-- One node of the instance arc: nothing to do, or its source is composed and becomes a base. -/
theorem instanceArc_cases {g1 : Classes} {done : List (Str × Nat)}
    (hins : ∀ p c, (p, c) ∈ nodes → (firstTable A_INSTANCE (tablesOf g1 specs c)).isSome)
    (hd : InstDone g1 nodes specs done g links) {p : Str} {c : Nat} (hm : (p, c) ∈ nodes) {g' : Classes}
    (hs : instanceArc nodes g (p, c) = some g') :
    (instSource g1 nodes specs c = none ∧ g' = g) ∨ ∃ b, instSource g1 nodes specs c = some b ∧
      (OVERLOAD.foldl (overloadAttr p c b) g).safeAddBase c b = some g' := by
  obtain ⟨lc, hlc⟩ := hd.orders p c hm
  obtain ⟨v, hv⟩ := Option.isSome_iff_exists.1 (hins p c hm)
  have hattr : g.attr c A_INSTANCE = v := by
    unfold Classes.attr
    rw [Laid.local_first hd.laid hm hlc (v := v)]
    · rfl
    · rw [firstTable_congr (fun d => hd.own d A_INSTANCE not_touched_instance), hv]
  have hin := instSource_eq (nodes := nodes) hv
  simp only [instanceArc] at hs
  rw [hattr] at hs
  split at hs
  · split at hs
    · rename_i ip hw
      refine Or.inl ⟨?_, (Option.some.inj hs).symm⟩
      rw [hin]
      exact if_pos hw
    · rename_i ip hw
      have e : instSource g1 nodes specs c = get? ip nodes := by rw [hin]; exact if_neg hw
      split at hs
      · rename_i hg
        exact Or.inl ⟨by rw [e, hg], (Option.some.inj hs).symm⟩
      · rename_i b hg
        exact Or.inr ⟨b, by rw [e, hg], hs⟩
  · rename_i hns
    refine Or.inl ⟨?_, (Option.some.inj hs).symm⟩
    rw [hin]
    split
    · exact (hns _ rfl).elim
    · rfl

theorem instanceArc_step {g1 : Classes} {done : List (Str × Nat)} (hp : Pathed nodes)
    (hins : ∀ p c, (p, c) ∈ nodes → (firstTable A_INSTANCE (tablesOf g1 specs c)).isSome)
    (hd : InstDone g1 nodes specs done g links) {pc : Str × Nat} (hm : pc ∈ nodes) (hn : pc ∉ done) {g' : Classes}
    (hs : instanceArc nodes g pc = some g') : ∃ links', InstDone g1 nodes specs (done ++ [pc]) g' links' := by
  obtain ⟨p, c⟩ := pc
  obtain ⟨ns, hN, rfl⟩ := hp p c hm
  obtain ⟨lc, hlc⟩ := hd.orders _ c hm
  have hlc0 : links c = (nearestAbove nodes ns).toList := hd.no ns c hN hm hn
  have hcase := instanceArc_cases hins hd hm hs
  rcases hcase with ⟨hnone, rfl⟩ | ⟨b, hb, hs⟩
  · refine ⟨links, hd.size, hd.own, hd.laid, hd.orders, hd.grown, fun ns' c' hN' hc' hdone => ?_,
      fun ns' c' hN' hc' hno => hd.no ns' c' hN' hc' fun h => hno (List.mem_append_left _ h)⟩
    rcases List.mem_append.1 hdone with hdone | hdone
    · exact hd.yes ns' c' hN' hc' hdone
    · have he := List.mem_singleton.1 hdone
      have h1 := Path.render_inj hN' hN (Prod.mk.inj he).1
      have h2 := (Prod.mk.inj he).2
      subst h1; subst h2
      rw [hnone]
      exact hlc0
  · obtain ⟨q, hq⟩ := instSource_mem hb
    have hsame := overload_same (render ns) c b OVERLOAD g
    have hown := overload_own (render ns) c b OVERLOAD (fun _ h => h) g
    have hL := Laid.same hd.laid hsame
    have hO : Orders (OVERLOAD.foldl (overloadAttr (render ns) c b) g) nodes := by
      intro p' c' hc'
      obtain ⟨l, hl⟩ := hd.orders p' c' hc'
      exact ⟨l, (Lin.same hsame).2 hl⟩
    obtain ⟨new, h1, h2, h3, h4, h5, h6⟩ := safeAdd_step hL hO hm hq hs
    have hgrow : ∀ x l l', Lin g x l → Lin g' x l' → ∀ d ∈ l, d ∈ l' := fun x l l' hl hl' =>
      h5 x l l' ((Lin.same hsame).2 hl) hl'
    refine ⟨_, by rw [h4, hsame.1, hd.size], fun d k hk => ?_, h1, h2, fun p' x l1 l hpx hl1 hl d hdm => ?_,
      fun ns' c' hN' hc' hdone => ?_, fun ns' c' hN' hc' hno => ?_⟩
    · rw [h3, (hown d k).2 hk, hd.own d k hk]
    · obtain ⟨lg, hlg⟩ := hd.orders p' x hpx
      exact hgrow x lg l hlg hl d (hd.grown p' x l1 lg hpx hl1 hlg d hdm)
    · by_cases hcc : c' = c
      · subst hcc
        have := Path.render_inj hN' hN (h1.inj _ _ _ hc' hm)
        subst this
        rw [if_pos rfl, hb]
        rw [hlc0] at h6
        cases hnear : nearestAbove nodes ns' with
        | none =>
          rw [hnear] at h6
          rcases h6 with ⟨h6, _⟩ | ⟨_, h7, lb, h8, h9⟩
          · cases h6
          · obtain ⟨lb', hlb'⟩ := h2 q b hq
            exact Or.inr ⟨by simp, h7, lb', hlb', Or.inl (by simpa using h9)⟩
        | some a =>
          rw [hnear] at h6
          rcases h6 with ⟨h6, h7⟩ | ⟨h6, h7, lb, h8, h9⟩
          · have : b = a := by simpa using h6
            subst this
            exact Or.inl ⟨rfl, by simpa using h7⟩
          · have hab : a ≠ b := fun e => h6 (by simp [e])
            obtain ⟨lb', hlb'⟩ := h2 q b hq
            refine Or.inr ⟨fun e => hab (Option.some.inj e), h7, lb', hlb', ?_⟩
            by_cases ha : a ∈ lb
            · exact Or.inr ⟨a, rfl, h5 b lb lb' h8 hlb' a ha, by rw [h9]; simp [hab, ha]⟩
            · exact Or.inl (by rw [h9]; simp [hab, ha])
      · rw [if_neg hcc]
        have hdone' : (render ns', c') ∈ done := by
          rcases List.mem_append.1 hdone with hdone | hdone
          · exact hdone
          · exact absurd (Prod.mk.inj (List.mem_singleton.1 hdone)).2 hcc
        refine (hd.yes ns' c' hN' hc' hdone').mono (fun b' hb' => ?_) hgrow
        obtain ⟨q', hq'⟩ := instSource_mem hb'
        exact h2 q' b' hq'
    · have hcc : c' ≠ c := by
        rintro rfl
        apply hno
        rw [h1.inj _ _ _ hc' hm]; simp
      rw [if_neg hcc]
      exact hd.no ns' c' hN' hc' fun h => hno (List.mem_append_left _ h)

theorem instances_fold {g1 : Classes} (hp : Pathed nodes)
    (hins : ∀ p c, (p, c) ∈ nodes → (firstTable A_INSTANCE (tablesOf g1 specs c)).isSome) :
    ∀ (order done : List (Str × Nat)) (g g' : Classes) (links : Nat → List Nat), (∀ x ∈ order, x ∈ nodes) →
      (done ++ order).Nodup → InstDone g1 nodes specs done g links →
      order.foldlM (instanceArc nodes) g = some g' → ∃ links', InstDone g1 nodes specs (done ++ order) g' links' := by
  intro order
  induction order with
  | nil => intro done g g' links _ _ hd hf; cases hf; exact ⟨links, by simpa using hd⟩
  | cons pc order ih =>
    intro done g g' links hm hn hd hf
    rw [List.foldlM_cons] at hf
    cases h1 : instanceArc nodes g pc with
    | none => rw [h1] at hf; cases hf
    | some g2 =>
      rw [h1] at hf
      obtain ⟨links2, h2⟩ := instanceArc_step hp hins hd (hm pc List.mem_cons_self) (by
        intro hpc
        exact (List.nodup_append.1 hn).2.2 pc hpc pc List.mem_cons_self rfl) h1
      have e : done ++ pc :: order = done ++ [pc] ++ order := by simp
      rw [e] at hn ⊢
      exact ih (done ++ [pc]) g2 g' links2 (fun x hx => hm x (List.mem_cons_of_mem _ hx)) hn h2 hf

/-- What holds at the end, when composing succeeded. -/
theorem postProxy_done {g' : Classes} (h : Laid g nodes specs (fun _ => [])) (hp : Pathed nodes)
    (hpar : ∀ ns c, Names ns → (render ns, c) ∈ nodes →
      firstTable A_PARENT (tablesOf g specs c) = some (.str (parentText ns)))
    (hins : ∀ p c, (p, c) ∈ nodes → (firstTable A_INSTANCE (tablesOf g specs c)).isSome)
    {order : List (Str × Nat)} (ho : order.Perm nodes) (hs : postProxy nodes order g = some g') :
    ∃ links, Laid g' nodes specs links ∧ Orders g' nodes ∧
      (∀ d k, ¬ Touched k → get? k (g'.own d) = get? k (g.own d)) ∧
      ∀ ns c, Names ns → (render ns, c) ∈ nodes →
        InstLinks g' (nearestAbove nodes ns) (instSource g nodes specs c) c (links c) := by
  have hnd : order.Nodup := ho.nodup_iff.2 ((List.pairwise_map.1 h.ok).imp fun hne he => hne (congrArg Prod.fst he))
  obtain ⟨g1, h1, h2, h3, links1, h4, h5⟩ := parents_fold (g0 := g) hp hpar order [] g
    (fun x hx => ho.mem_iff.1 hx) (by simpa using hnd) ⟨rfl, rfl, _, h, fun ns c _ _ => by simp⟩
  have hlinks : ∀ ns c, Names ns → (render ns, c) ∈ nodes → links1 c = (nearestAbove nodes ns).toList := by
    intro ns c hN hc
    rw [h5 ns c hN hc, if_pos (by simpa using ho.mem_iff.2 hc)]
  have ht : tablesOf g1 specs = tablesOf g specs := by funext d; unfold tablesOf; rw [h2]
  have hi : ∀ c, instSource g1 nodes specs c = instSource g nodes specs c := by
    intro c; unfold instSource; rw [ht]
  unfold postProxy at hs
  rw [h1, Option.bind_some] at hs
  have hO : Orders g1 nodes := by
    intro p c hc
    obtain ⟨ns, hN, rfl⟩ := hp p c hc
    obtain ⟨l, hl, _⟩ := Laid.lin_parents h4 (fun ns c hN hc => Or.inr (hlinks ns c hN hc)) (ns.length + 1) ns c
      (by omega) hN hc
    exact ⟨l, hl⟩
  obtain ⟨links, hd⟩ := instances_fold (g1 := g1) hp (by rw [ht]; exact hins) order [] g1 g' links1
    (fun x hx => ho.mem_iff.1 hx) (by simpa using hnd)
    ⟨rfl, fun _ _ _ => rfl, h4, hO, fun _ x l1 l _ ha hb d hdm => by rw [← ha.det hb]; exact hdm,
      (fun _ _ _ _ h => nomatch h), fun ns c hN hc _ => hlinks ns c hN hc⟩ hs
  refine ⟨links, hd.laid, hd.orders, fun d k hk => by rw [hd.own d k hk, h2], fun ns c hN hc => ?_⟩
  rw [← hi]
  exact hd.yes ns c hN hc (by simpa using ho.mem_iff.2 hc)

/-! ### Parent and instance source together -/

/-- What only the first of several orders has at its front comes first. -/
theorem merge_prefix (n : Nat) (pre : List Nat) : ∀ (t : List Nat) (R : List (List Nat)), pre.Nodup → 0 ∈ t →
    (∀ s ∈ pre, s ≠ 0 ∧ s ∉ t ∧ ∀ l ∈ R, s ∉ l) →
    merge (List.replicate n [0] ++ (pre ++ t) :: R) =
      (merge (List.replicate n [0] ++ t :: R)).map (pre ++ ·) := by
  induction pre with
  | nil => intro t R _ _ _; simp
  | cons s pre ih =>
    intro t R hn h0 hs
    have hs' := hs s List.mem_cons_self
    have hsn := (List.nodup_cons.1 hn).1
    have hp : pick (List.replicate n [0] ++ (s :: pre ++ t) :: R) (List.replicate n [0] ++ (s :: pre ++ t) :: R) = some s := by
      rw [pick_skip]
      · apply pick_head
        intro l hl
        rcases List.mem_append.1 hl with hl | hl
        · rw [List.eq_of_mem_replicate hl]; simp
        · rcases List.mem_cons.1 hl with rfl | hl
          · simp only [List.cons_append, List.tail_cons, List.mem_append, not_or]
            exact ⟨hsn, hs'.2.1⟩
          · exact fun h => hs'.2.2 l hl (List.mem_of_mem_tail h)
      · intro l hl h hh
        rw [List.eq_of_mem_replicate hl] at hh
        cases hh
        exact ⟨s :: pre ++ t, by simp, by simp [h0]⟩
    rw [merge_step hp]
    have e1 : (List.replicate n [0]).map (strip s) = List.replicate n [0] := by
      rw [List.map_replicate, strip_not_mem (by simpa using hs'.1)]
    have e3 : R.map (strip s) = R := by
      conv => rhs; rw [← List.map_id R]
      apply List.map_congr_left
      intro l hl
      exact strip_not_mem (hs'.2.2 l hl)
    rw [List.map_append, List.map_cons, e1, e3, List.cons_append, strip_cons,
      ih t R (List.nodup_cons.1 hn).2 h0 (fun x hx => hs x (List.mem_cons_of_mem _ hx))]
    cases merge (List.replicate n [0] ++ t :: R) <;> simp

/-- The order of a node linked to its parent and, weaker, to its instance source. -/
theorem Laid.lin_two (h : Laid g nodes specs links) {p q r : Str} {c a b : Nat} (hc : (p, c) ∈ nodes)
    (ha : (q, a) ∈ nodes) (hb : (r, b) ∈ nodes)
    (hl : links c = [a, b]) {l la lb : List Nat} (hlc : Lin g c l) (hla : Lin g a la) (hlb : Lin g b lb) :
    a ∉ lb ∧ ∃ ma m, la = a :: (specs a ++ ma) ∧ l = c :: (specs c ++ a :: (specs a ++ m)) ∧
      List.Sublist ma m ∧ List.Sublist lb m ∧ ∀ x ∈ m, x ∈ ma ∨ x ∈ lb := by
  obtain ⟨m, ls, h1, h2, h3⟩ := Laid.shape h hc hlc
  rw [hl] at h2 h3
  obtain ⟨la', lb', rfl⟩ : ∃ la' lb', ls = [la', lb'] := by
    cases h2 with
    | cons _ h2 => cases h2 with
      | cons _ h2 => cases h2; exact ⟨_, _, rfl⟩
  cases h2 with
  | cons e1 h2 => cases h2 with
    | cons e2 _ =>
      obtain rfl := hla.det e1
      obtain rfl := hlb.det e2
      obtain ⟨ma, _, rfl, _⟩ := Laid.shape h ha hla
      have hsub := merge_sublist h3
      have hnd := merge_nodup h3
      have hab : List.Sublist [a, b] m := hsub _ (by simp)
      have hne : a ≠ b := by
        have := hab.nodup hnd
        simp at this
        exact this
      have hanb : a ∉ lb := by
        intro hin
        obtain ⟨_, tb, _, rfl, _⟩ : ∃ f tb, True ∧ lb = b :: tb ∧ True := by
          obtain ⟨f, hf⟩ := hlb
          obtain ⟨f', t, _, rfl, _⟩ := lin_parts hf
          exact ⟨f, t, trivial, rfl, trivial⟩
        rcases List.mem_cons.1 hin with rfl | hin
        · exact hne rfl
        · have h5 : List.Sublist [b, a] m := ((List.singleton_sublist.2 hin).cons_cons b).trans (hsub _ (by simp))
          -- both orders cannot hold
          have : ∀ m : List Nat, m.Nodup → List.Sublist [a, b] m → List.Sublist [b, a] m → False := by
            intro m
            induction m with
            | nil => intro _ h; cases h
            | cons x m ih =>
              intro hn h1 h2
              cases h1 with
              | cons _ h1 => cases h2 with
                | cons _ h2 => exact ih (List.nodup_cons.1 hn).2 h1 h2
                | cons_cons _ h2 =>
                  exact (List.nodup_cons.1 hn).1 (h1.subset (by simp))
              | cons_cons _ h1 => cases h2 with
                | cons _ h2 => exact (List.nodup_cons.1 hn).1 (h2.subset (by simp))
                | cons_cons _ h2 => exact hne rfl
          exact this m hnd hab h5
      refine ⟨hanb, ma, ?_⟩
      have hz := Laid.zero_mem h hla (h.comp q a ha).2.1
      have hsp : ∀ s ∈ specs a, s ≠ 0 ∧ s ∉ ma ∧ s ∉ lb ∧ s ≠ b := by
        intro s hs
        have hs' := h.spec q a ha s hs
        have hnla := (List.nodup_cons.1 hla.nodup).2
        refine ⟨by omega, fun hm => (List.nodup_append.1 hnla).2.2 s hs s hm rfl, fun hm => ?_, fun e => ?_⟩
        · refine hanb (Laid.owner h ha hs hlb (h.comp r b hb).2.1 ?_ hm)
          rintro rfl; exact hs'.2.2.2 r hb
        · exact hs'.2.2.2 r (e ▸ hb)
      have ha0 : a ≠ 0 := by have := (h.comp q a ha).1; omega
      have hzma : 0 ∈ ma := by
        simp only [List.mem_cons, List.mem_append] at hz
        rcases hz with hz | hz | hz
        · exact absurd hz.symm ha0
        · exact absurd rfl (hsp 0 hz).1
        · exact hz
      have hpick : pick (List.replicate (specs c).length [0] ++ [a :: (specs a ++ ma), lb] ++ [[a, b]])
          (List.replicate (specs c).length [0] ++ [a :: (specs a ++ ma), lb] ++ [[a, b]]) = some a := by
        rw [List.append_assoc, pick_skip]
        · apply pick_head
          intro l hl
          simp only [List.mem_append, List.mem_replicate, List.mem_cons, List.not_mem_nil, or_false,
            List.mem_singleton, List.cons_append, List.nil_append] at hl
          rcases hl with ⟨_, rfl⟩ | rfl | rfl | rfl
          · simp
          · exact (List.nodup_cons.1 hla.nodup).1
          · exact fun h => hanb (List.mem_of_mem_tail h)
          · simpa using hne
        · intro l hl h hh
          rw [List.eq_of_mem_replicate hl] at hh
          cases hh
          exact ⟨a :: (specs a ++ ma), by simp, by simp [hzma]⟩
      rw [merge_step hpick] at h3
      have hstrip : List.map (strip a) (List.replicate (specs c).length [0] ++ [a :: (specs a ++ ma), lb] ++ [[a, b]]) =
          List.replicate (specs c).length [0] ++ (specs a ++ ma) :: [lb, [b]] := by
        have h0 : strip a [0] = [0] := strip_not_mem (by simpa using ha0)
        rw [List.map_append, List.map_append, List.map_replicate, h0]
        simp only [List.map_cons, List.map_nil, strip_cons, strip_not_mem hanb]
        simp
      rw [hstrip, merge_prefix _ (specs a) ma [lb, [b]] (h.nodup q a ha) hzma (fun s hs => by
        refine ⟨(hsp s hs).1, (hsp s hs).2.1, fun l hl => ?_⟩
        simp only [List.mem_cons, List.not_mem_nil, or_false] at hl
        rcases hl with rfl | rfl
        · exact (hsp s hs).2.2.1
        · simpa using (hsp s hs).2.2.2)] at h3
      obtain ⟨m1, hm1, rfl⟩ := Option.map_eq_some_iff.1 h3
      obtain ⟨m2, hm2, rfl⟩ := Option.map_eq_some_iff.1 hm1
      have hsub2 := merge_sublist hm2
      refine ⟨m2, rfl, h1, hsub2 _ (by simp), hsub2 _ (by simp), fun x hx => ?_⟩
      obtain ⟨l, hl, hxl⟩ := (merge_mem hm2 x).1 hx
      simp only [List.mem_append, List.mem_replicate, List.mem_cons, List.not_mem_nil, or_false] at hl
      rcases hl with ⟨_, rfl⟩ | rfl | rfl | rfl
      · rw [List.mem_singleton.1 hxl]; exact Or.inl hzma
      · exact Or.inl hxl
      · exact Or.inr hxl
      · rw [List.mem_singleton.1 hxl]; exact Or.inr hlb.self

/-! ### The three composed attributes -/

theorem Laid.attr_local (h : Laid g nodes specs links) (ho : Orders g nodes) {p : Str} {c : Nat} (hc : (p, c) ∈ nodes)
    {k : Str} {v : Val} (hv : firstTable k (tablesOf g specs c) = some v) : g.attr c k = v := by
  obtain ⟨l, hl⟩ := ho p c hc
  unfold Classes.attr
  rw [Laid.local_first h hc hl hv]; rfl

theorem overload_ne {a a' : Str} (ha : a ∈ OVERLOAD) (ha' : a' ∈ OVERLOAD) : a ≠ a' ++ M_SOURCE := by
  simp only [OVERLOAD, List.mem_cons, List.not_mem_nil, or_false] at ha ha'
  rcases ha with rfl | rfl | rfl <;> rcases ha' with rfl | rfl | rfl <;> decide +kernel

/-- One attribute composed: only that key of that node. -/
theorem overloadAttr_table (h : Laid g nodes specs links) {path p : Str} {c b : Nat} (hc : (p, c) ∈ nodes)
    {a a' : Str} (ha : a ∈ OVERLOAD) (ha' : a' ∈ OVERLOAD) {q : Str} {x : Nat} (hx : (q, x) ∈ nodes) :
    firstTable a (tablesOf (overloadAttr path c b g a') specs x) =
      if x = c ∧ a = a' ∧ (g.attr c a').hasOpinion = false then some (g.attr b a')
      else firstTable a (tablesOf g specs x) := by
  have hspecs : (specs x).map (overloadAttr path c b g a').own = (specs x).map g.own := by
    apply List.map_congr_left
    intro s hs
    have hsc : s ≠ c := by rintro rfl; exact (h.spec q x hx s hs).2.2.2 p hc
    unfold overloadAttr
    split
    · rfl
    · simp [setAttr, hsc]
  have hne := overload_ne ha ha'
  have hsp : ∀ s ∈ specs x, (overloadAttr path c b g a').own s = g.own s := fun s hs => by
    have hsc : s ≠ c := by rintro rfl; exact (h.spec q x hx s hs).2.2.2 p hc
    unfold overloadAttr
    split
    · rfl
    · simp [setAttr, hsc]
  unfold firstTable tablesOf
  rw [hspecs, List.findSome?_cons, List.findSome?_cons]
  have hown : get? a ((overloadAttr path c b g a').own x) =
      if x = c ∧ a = a' ∧ (g.attr c a').hasOpinion = false then some (g.attr b a') else get? a (g.own x) := by
    unfold overloadAttr
    by_cases hop : (g.attr c a').hasOpinion = true
    · rw [if_pos hop, if_neg (by rintro ⟨_, _, h⟩; rw [hop] at h; cases h)]
    · rw [if_neg hop]
      have hop' : (g.attr c a').hasOpinion = false := by simpa using hop
      by_cases hxc : x = c
      · subst hxc
        simp only [setAttr, if_true]
        rw [get?_set, if_neg hne, get?_set]
        by_cases haa : a = a'
        · rw [if_pos haa, if_pos ⟨trivial, haa, hop'⟩]
        · rw [if_neg haa, if_neg fun h => haa h.2.1]
      · rw [if_neg fun h => hxc h.1]
        simp [setAttr, hxc]
  rw [hown]
  by_cases hcond : x = c ∧ a = a' ∧ (g.attr c a').hasOpinion = false
  · rw [if_pos hcond, if_pos hcond]
  · rw [if_neg hcond, if_neg hcond]

/-- The value of a composed attribute of a node, given that of its instance source. -/
theorem overload_table (h : Laid g nodes specs links) (ho : Orders g nodes) {path p q : Str} {c b : Nat}
    (hc : (p, c) ∈ nodes) (hb : (q, b) ∈ nodes) (hne : c ≠ b) {a : Str} (ha : a ∈ OVERLOAD)
    (hsome : ∀ p x, (p, x) ∈ nodes → (firstTable a (tablesOf g specs x)).isSome) :
    (∀ r x, (r, x) ∈ nodes → x ≠ c → firstTable a (tablesOf (OVERLOAD.foldl (overloadAttr path c b) g) specs x) =
      firstTable a (tablesOf g specs x)) ∧
    firstTable a (tablesOf (OVERLOAD.foldl (overloadAttr path c b) g) specs c) =
      some (if (g.attr c a).hasOpinion then g.attr c a else g.attr b a) := by
  have hO : ∀ {g1 : Classes}, SameBases g g1 → Orders g1 nodes := fun hs p' c' hc' => by
    obtain ⟨l, hl⟩ := ho p' c' hc'
    exact ⟨l, (Lin.same hs).2 hl⟩
  -- keys other than `a` do not matter
  have other : ∀ (as : List Str), (∀ x ∈ as, x ∈ OVERLOAD) → a ∉ as → ∀ g1, SameBases g g1 → ∀ r x, (r, x) ∈ nodes →
      firstTable a (tablesOf (as.foldl (overloadAttr path c b) g1) specs x) = firstTable a (tablesOf g1 specs x) := by
    intro as
    induction as with
    | nil => intro _ _ g1 _ r x _; rfl
    | cons a' as ih =>
      intro hs hn g1 hg1 r x hx
      rw [List.foldl_cons, ih (fun x hx => hs x (List.mem_cons_of_mem _ hx)) (fun hm => hn (List.mem_cons_of_mem _ hm)) _
        (hg1.trans (overloadAttr_same path c b g1 a')) r x hx,
        overloadAttr_table (Laid.same h hg1) hc ha (hs a' List.mem_cons_self) hx,
        if_neg fun (h : x = c ∧ a = a' ∧ _) => hn (h.2.1 ▸ List.mem_cons_self)]
  obtain ⟨pre, post, hsplit, hpre, hpost⟩ : ∃ pre post, OVERLOAD = pre ++ a :: post ∧ a ∉ pre ∧ a ∉ post := by
    simp only [OVERLOAD, List.mem_cons, List.not_mem_nil, or_false] at ha
    rcases ha with rfl | rfl | rfl
    · exact ⟨[], [A_COMMENT, A_CODE], rfl, by simp, by decide +kernel⟩
    · exact ⟨[A_ENABLED], [A_CODE], rfl, by decide +kernel, by decide +kernel⟩
    · exact ⟨[A_ENABLED, A_COMMENT], [], rfl, by decide +kernel, by simp⟩
  have hin : (∀ x ∈ pre, x ∈ OVERLOAD) ∧ ∀ x ∈ post, x ∈ OVERLOAD := by
    rw [hsplit]
    exact ⟨fun x hx => by simp [hx], fun x hx => by simp [hx]⟩
  have e : OVERLOAD.foldl (overloadAttr path c b) g =
      post.foldl (overloadAttr path c b) (overloadAttr path c b (pre.foldl (overloadAttr path c b) g) a) := by
    rw [hsplit, List.foldl_append, List.foldl_cons]
  have s1 := overload_same path c b pre g
  have s2 := s1.trans (overloadAttr_same path c b (pre.foldl (overloadAttr path c b) g) a)
  have h1 := other pre hin.1 hpre g (.refl g)
  -- values before the step for `a`
  have hval : ∀ r x, (r, x) ∈ nodes → (pre.foldl (overloadAttr path c b) g).attr x a = g.attr x a := by
    intro r x hx
    obtain ⟨v, hv⟩ := Option.isSome_iff_exists.1 (hsome r x hx)
    rw [Laid.attr_local h ho hx hv]
    exact Laid.attr_local (Laid.same h s1) (hO s1) hx (by rw [h1 r x hx, hv])
  rw [e]
  refine ⟨fun r x hx hxc => ?_, ?_⟩
  · rw [other post hin.2 hpost _ s2 r x hx, overloadAttr_table (Laid.same h s1) hc ha ha hx, if_neg fun h => hxc h.1,
      h1 r x hx]
  · rw [other post hin.2 hpost _ s2 p c hc, overloadAttr_table (Laid.same h s1) hc ha ha hc, hval p c hc, hval q b hb]
    cases hop : (g.attr c a).hasOpinion with
    | false => rw [if_pos ⟨rfl, rfl, rfl⟩, if_neg (by simp)]
    | true =>
      rw [if_neg (by rintro ⟨_, _, h⟩; cases h), if_pos rfl, h1 p c hc]
      obtain ⟨v, hv⟩ := Option.isSome_iff_exists.1 (hsome p c hc)
      rw [hv, Laid.attr_local h ho hc hv]

/-- The composed attribute while the instance arc is running: done nodes have the value asked for, others
are as before. -/
def ValuesDone (g1 : Classes) (nodes : Dict Str Nat) (specs : Nat → List Nat) (a : Str) (done : List (Str × Nat))
    (g : Classes) : Prop :=
  ∀ p c, (p, c) ∈ nodes → ∃ v0 v, firstTable a (tablesOf g1 specs c) = some v0 ∧
    firstTable a (tablesOf g specs c) = some v ∧
    if (p, c) ∈ done then
      v = if v0.hasOpinion then v0 else match instSource g1 nodes specs c with | none => v0 | some b => g.attr b a
    else v = v0

theorem values_step {g1 : Classes} {done : List (Str × Nat)}
    (hins : ∀ p c, (p, c) ∈ nodes → (firstTable A_INSTANCE (tablesOf g1 specs c)).isSome) {a : Str} (ha : a ∈ OVERLOAD)
    (hd : InstDone g1 nodes specs done g links) (hvd : ValuesDone g1 nodes specs a done g) {p : Str} {c : Nat}
    (hm : (p, c) ∈ nodes) (hn : (p, c) ∉ done)
    (hclosed : ∀ x ∈ done, ∀ q b, instSource g1 nodes specs x.2 = some b → (q, b) ∈ nodes → (q, b) ∈ done)
    {g' : Classes} (hs : instanceArc nodes g (p, c) = some g') :
    ValuesDone g1 nodes specs a (done ++ [(p, c)]) g' ∧ instSource g1 nodes specs c ≠ some c := by
  have hsome : ∀ p x, (p, x) ∈ nodes → (firstTable a (tablesOf g specs x)).isSome := by
    intro p x hx
    obtain ⟨v0, v, _, h2, _⟩ := hvd p x hx
    rw [h2]; rfl
  rcases instanceArc_cases hins hd hm hs with ⟨hnone, rfl⟩ | ⟨b, hb, hs⟩
  · refine ⟨fun q x hx => ?_, by rw [hnone]; simp⟩
    obtain ⟨v0, v, h1, h2, h3⟩ := hvd q x hx
    refine ⟨v0, v, h1, h2, ?_⟩
    by_cases he : (q, x) = (p, c)
    · cases he
      rw [if_neg hn] at h3
      rw [if_pos (by simp), hnone, h3]
      simp
    · simpa only [List.mem_append, List.mem_singleton, he, or_false] using h3
  · obtain ⟨q, hq⟩ := instSource_mem hb
    have hsame := overload_same p c b OVERLOAD g
    have hL := Laid.same hd.laid hsame
    have hO : Orders (OVERLOAD.foldl (overloadAttr p c b) g) nodes := by
      intro p' c' hc'
      obtain ⟨l, hl⟩ := hd.orders p' c' hc'
      exact ⟨l, (Lin.same hsame).2 hl⟩
    obtain ⟨new, h1, h2, h3, h4, h5, h6⟩ := safeAdd_step hL hO hm hq hs
    have hne : c ≠ b := by
      rcases h6 with ⟨h6, _⟩ | ⟨_, h6, _⟩
      · rintro rfl
        obtain ⟨l, hl⟩ := hd.orders _ c hm
        exact Lin.base_above hl (b := c) (by rw [(hd.laid.comp _ c hm).2.2]; simp [h6]) hl hl.self
      · exact h6
    have ht : tablesOf g' specs = tablesOf (OVERLOAD.foldl (overloadAttr p c b) g) specs := by
      funext d; unfold tablesOf; rw [h3]
    obtain ⟨hother, hself⟩ := overload_table (path := p) hd.laid hd.orders hm hq hne ha hsome
    have hattr : ∀ r x, (r, x) ∈ nodes → x ≠ c → g'.attr x a = g.attr x a := by
      intro r x hx hxc
      obtain ⟨v, hv⟩ := Option.isSome_iff_exists.1 (hsome r x hx)
      rw [Laid.attr_local hd.laid hd.orders hx hv]
      exact Laid.attr_local h1 h2 hx (by rw [ht, hother r x hx hxc, hv])
    refine ⟨fun r x hx => ?_, by rw [hb]; exact fun e => hne (Option.some.inj e).symm⟩
    obtain ⟨v0, v, e1, e2, e3⟩ := hvd r x hx
    by_cases he : (r, x) = (p, c)
    · cases he
      rw [if_neg hn] at e3
      subst e3
      refine ⟨v, _, e1, by rw [ht, hself], ?_⟩
      rw [if_pos (by simp), Laid.attr_local hd.laid hd.orders hm e2, hb]
      simp only
      rw [hattr q b hq (Ne.symm hne)]
    · have hxc : x ≠ c := by
        rintro rfl
        exact he (by rw [hd.laid.inj _ _ _ hx hm])
      refine ⟨v0, v, e1, by rw [ht, hother r x hx hxc, e2], ?_⟩
      simp only [List.mem_append, List.mem_singleton, he, or_false]
      by_cases hdone : (r, x) ∈ done
      · rw [if_pos hdone] at e3 ⊢
        rw [e3]
        cases hi : instSource g1 nodes specs x with
        | none => rfl
        | some b' =>
          simp only
          obtain ⟨q', hq'⟩ := instSource_mem hi
          have hb'd := hclosed _ hdone q' b' hi hq'
          rw [hattr q' b' hq' (by
            rintro rfl
            apply hn
            rw [hd.laid.inj _ _ _ hm hq']; exact hb'd)]
      · rw [if_neg hdone] at e3 ⊢
        exact e3

theorem values_fold {g1 : Classes} (hp : Pathed nodes)
    (hins : ∀ p c, (p, c) ∈ nodes → (firstTable A_INSTANCE (tablesOf g1 specs c)).isSome) {a : Str} (ha : a ∈ OVERLOAD) :
    ∀ (order done : List (Str × Nat)) (g g' : Classes) (links : Nat → List Nat), (∀ x ∈ order, x ∈ nodes) →
      (done ++ order).Nodup → InstDone g1 nodes specs done g links → ValuesDone g1 nodes specs a done g →
      (∀ x ∈ done, ∀ q b, instSource g1 nodes specs x.2 = some b → (q, b) ∈ nodes → (q, b) ∈ done) →
      (∀ pre x post, order = pre ++ x :: post → ∀ q b, instSource g1 nodes specs x.2 = some b → (q, b) ∈ nodes →
        x.2 ≠ b → (q, b) ∈ done ++ pre) →
      order.foldlM (instanceArc nodes) g = some g' → ValuesDone g1 nodes specs a (done ++ order) g' := by
  intro order
  induction order with
  | nil => intro done g g' links _ _ _ hv _ _ hf; cases hf; simpa using hv
  | cons pc order ih =>
    intro done g g' links hm hn hd hv hclosed hsorted hf
    rw [List.foldlM_cons] at hf
    cases h1 : instanceArc nodes g pc with
    | none => rw [h1] at hf; cases hf
    | some g2 =>
      rw [h1] at hf
      have hpc : pc ∉ done := fun hpc => (List.nodup_append.1 hn).2.2 pc hpc pc List.mem_cons_self rfl
      obtain ⟨links2, h2⟩ := instanceArc_step hp hins hd (hm pc List.mem_cons_self) hpc h1
      obtain ⟨h3, h3'⟩ := values_step hins ha hd hv (hm pc List.mem_cons_self) hpc hclosed h1
      have e : done ++ pc :: order = done ++ [pc] ++ order := by simp
      rw [e] at hn ⊢
      refine ih (done ++ [pc]) g2 g' links2 (fun x hx => hm x (List.mem_cons_of_mem _ hx)) hn h2 h3 ?_ ?_ hf
      · intro x hx q b hi hq
        rcases List.mem_append.1 hx with hx | hx
        · exact List.mem_append_left _ (hclosed x hx q b hi hq)
        · rw [List.mem_singleton.1 hx] at hi
          have := hsorted [] pc order rfl q b hi hq (fun e => h3' (by rw [hi, e]))
          rw [List.append_nil] at this
          exact List.mem_append_left _ this
      · intro pre x post he q b hi hq hxb
        have := hsorted (pc :: pre) x post (by rw [he]; rfl) q b hi hq hxb
        simpa using this

end Nxt.Inherit
