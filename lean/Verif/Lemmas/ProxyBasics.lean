import Verif.Spec.Proxies
import Verif.Lemmas.Dirty
import Verif.Props.Dirty
import Verif.Props.Lists
import Verif.Props.Path
import Verif.Lemmas.Children
/-!
# Lemmas about the state in which proxies are made
-/
namespace Nxt.Proxies
open Dict Spec Path

/-! ### Paths -/

theorem slashed_prefix {ns : List Str} (h : Names ns) {r t : Str} (e : slashed ns = r ++ '/' :: t) :
    ∃ ms rest, rest ≠ [] ∧ ns = ms ++ rest ∧ r = slashed ms := by
  induction ns generalizing r t with
  | nil => simp [slashed] at e
  | cons n ns ih =>
    cases r with
    | nil => exact ⟨[], n :: ns, by simp, by simp, rfl⟩
    | cons c r =>
      simp only [slashed, List.cons_append, List.cons.injEq] at e
      obtain ⟨rfl, e⟩ := e
      have hn := (names_cons.1 h).1.2.1
      rcases List.append_eq_append_iff.1 e with ⟨as, h1, h2⟩ | ⟨bs, h1, h2⟩
      · obtain ⟨ms, rest, g1, g2, g3⟩ := ih (names_cons.1 h).2 h2
        exact ⟨n :: ms, rest, g1, by rw [g2]; rfl, by rw [h1, g3]; rfl⟩
      · cases bs with
        | nil =>
          simp only [List.append_nil] at h1
          simp only [List.nil_append] at h2
          subst h1
          cases ns with
          | nil => simp [slashed] at h2
          | cons m ns => exact ⟨[n], m :: ns, by simp, rfl, by simp [slashed]⟩
        | cons b bs =>
          simp only [List.cons_append, List.cons.injEq] at h2
          rw [h1, ← h2.1] at hn
          simp at hn

theorem kidPaths_gives : GivesKids kidPaths := by
  intro paths hp r hr hw c
  have key : ∀ (l acc : List Str), ∀ t, t ∈ l.foldl (Tree.impliedStep r) acc ↔ t ∈ acc ∨
      ∃ path ∈ l, isAncestor path r = true ∧ t = trimToDepth path (pathDepth r + 1) := by
    intro l
    induction l with
    | nil => intro acc t; simp
    | cons y ys ih =>
      intro acc t
      rw [List.foldl_cons, ih]
      have hs : t ∈ Tree.impliedStep r acc y ↔ t ∈ acc ∨
          (isAncestor y r = true ∧ t = trimToDepth y (pathDepth r + 1)) := by
        unfold Tree.impliedStep
        split
        · rename_i ha
          simp only
          split
          · rename_i ht
            constructor
            · exact .inl
            · rintro (h | ⟨-, rfl⟩)
              · exact h
              · exact ht
          · rw [List.mem_append, List.mem_singleton]
            simp [ha]
        · rename_i ha
          simp [ha]
      rw [hs]
      simp only [List.mem_cons, exists_eq_or_imp, or_assoc]
  unfold kidPaths
  rw [key]
  constructor
  · rintro (h | ⟨path, h1, h2, rfl⟩)
    · cases h
    · obtain ⟨p, hn, rfl⟩ := hp path h1
      unfold isAncestor at h2
      rw [if_neg (show ¬ r = WORLD from hw), Py.startsWith_iff] at h2
      obtain ⟨t, ht⟩ := h2
      cases p with
      | nil =>
        rw [show render [] = ['/'] from rfl] at ht
        cases r with
        | nil => exact absurd rfl hr
        | cons c r => simp [SEP] at ht
      | cons n p =>
        rw [render_cons] at ht
        obtain ⟨ms, rest, g1, g2, g3⟩ := slashed_prefix hn (r := r) (t := t) (by rw [ht]; simp [SEP])
        obtain ⟨x, rest, rfl⟩ := List.exists_cons_of_ne_nil g1
        have hm : ms ≠ [] := by rintro rfl; exact hr g3
        have hms : Names ms := (names_append.1 (g2 ▸ hn)).1
        have hrm : r = render ms := by rw [render_ne_nil hm]; exact g3
        refine ⟨ms, x, rest, g2 ▸ hn, hrm, ?_, g2 ▸ h1⟩
        rw [hrm, Props.C11_depth ms hms, Props.C11_trim _ hn, g2]
        congr 1
        rw [List.take_append, List.take_of_length_le (by omega), Nat.add_sub_cancel_left]
        simp
  · rintro ⟨a, x, rest, h1, rfl, rfl, h4⟩
    have ha : Names a := (names_append.1 h1).1
    refine .inr ⟨_, h4, ?_, ?_⟩
    · rw [Props.C10_is_ancestor _ _ h1 ha]
      exact .inr ⟨x :: rest, by simp, rfl⟩
    · rw [Props.C11_depth a ha, Props.C11_trim _ h1]
      congr 1
      simp [List.take_append, List.take_of_length_le]

/-- Where the target of a child is. -/
theorem target_eq {p a : List Str} {x : Str} (hp : Names p) (h0 : p ≠ []) (ha : Names (a ++ [x])) :
    fromNamespace (toNamespace (render p) ++ [(toNamespace (render (a ++ [x]))).getLast?.getD []])
      = render (p ++ [x]) := by
  have e1 : toNamespace (render p) = p := by
    have := Props.C08_namespace_roundtrip p hp h0
    rw [← this.1]; exact this.2
  have e2 : toNamespace (render (a ++ [x])) = a ++ [x] := by
    have := Props.C08_namespace_roundtrip (a ++ [x]) ha (by simp)
    rw [← this.1]; exact this.2
  rw [e1, e2, List.getLast?_append]
  simp only [List.getLast?_singleton, Option.some_or, Option.getD_some]
  exact fromNamespace_eq (by simp)

/-! ### The instance path of a node -/

theorem walk_ne_nil {stack ds : List Str} (h : ∀ n ∈ stack, n ≠ []) : ∀ n ∈ walk stack ds, n ≠ [] := by
  induction ds generalizing stack with
  | nil => exact h
  | cons d ds ih =>
    unfold walk
    split
    · exact ih (fun n hn => h n (List.dropLast_subset _ hn))
    · split
      · exact ih h
      · rename_i hd
        refine ih (fun n hn => ?_)
        rcases List.mem_append.1 hn with hn | hn
        · exact h n hn
        · rw [List.mem_singleton.1 hn]
          exact fun he => hd (.inr he)

theorem head_render (r : List Str) : (render r).head? = some '/' := by
  cases r <;> rfl

theorem expand_render (r : List Str) (s : Str) : expandRelative (some (render r)) s = some (render r) :=
  Props.C13_absolute_unchanged _ _ (head_render r)

/-- What the expansion of an instance path gives. -/
theorem expand_shape {p : List Str} {i r : Str} (hp : Names p) (h0 : p ≠ []) (hi : i ≠ []) (hw : i ≠ WORLD)
    (h : expandRelative (some i) (render p) = some r) : r = [] ∨ (r.head? = some '/' ∧ r ≠ WORLD) := by
  by_cases hh : i.head? = some '/'
  · rw [Props.C13_absolute_unchanged _ _ hh] at h
    cases h
    exact .inr ⟨hh, hw⟩
  · rw [render_ne_nil h0, Props.C13_expand_exact i p (fun n hn => (hp n hn).2.1) hi hh] at h
    cases h
    have hne := walk_ne_nil (stack := p) (ds := Py.split '/' i) (fun n hn => (hp n hn).1)
    cases hl : walk p (Py.split '/' i) with
    | nil => exact .inl rfl
    | cons n ns =>
      refine .inr ⟨rfl, fun he => ?_⟩
      simp only [slashed, WORLD, List.cons.injEq, List.append_eq_nil_iff, true_and] at he
      exact hne n (by rw [hl]; exact List.mem_cons_self) he.1

theorem pointsTo_iff {p r : List Str} {i : Str} (hp : Names p) (h0 : p ≠ []) (hi : i ≠ []) :
    PointsTo i p r ↔ r ≠ [] ∧ Names r ∧ expandRelative (some i) (render p) = some (render r) := by
  unfold PointsTo
  by_cases hh : i.head? = some '/'
  · rw [Props.C13_absolute_unchanged _ _ hh]
    constructor
    · rintro ⟨h1, h2, rfl | ⟨-, h, -⟩⟩
      · exact ⟨h1, h2, rfl⟩
      · exact absurd hh h
    · rintro ⟨h1, h2, h⟩
      exact ⟨h1, h2, .inl (Option.some.inj h)⟩
  · rw [render_ne_nil h0, Props.C13_expand_exact i p (fun n hn => (hp n hn).2.1) hi hh]
    constructor
    · rintro ⟨h1, h2, rfl | ⟨-, -, h⟩⟩
      · exact absurd (head_render r) hh
      · refine ⟨h1, h2, ?_⟩
        rw [← h, render_ne_nil]
        intro he
        rw [he] at h
        exact h1 ((render_eq_world h2).1 h.symm)
    · rintro ⟨h1, h2, h⟩
      refine ⟨h1, h2, .inr ⟨hi, hh, ?_⟩⟩
      have h := Option.some.inj h
      rw [← h, render_ne_nil]
      intro he
      rw [he] at h
      have := head_render r
      rw [← h] at this
      cases this

theorem pointsTo_abs {p r a : List Str} (hr : Names r) (h : PointsTo (render r) p a) : a = r := by
  obtain ⟨h1, h2, h3 | ⟨-, h3, -⟩⟩ := h
  · exact (render_inj hr h2 h3).symm
  · exact absurd (head_render r) h3

theorem pointsTo_render {p r : List Str} (h0 : r ≠ []) (hr : Names r) : PointsTo (render r) p r :=
  ⟨h0, hr, .inl rfl⟩

/-! ### Single updates -/

theorem instOf_setInst (S : St) (p v q : Str) :
    instOf (setInst S p v) q = if q = p ∧ p ∈ keys S.nodes then some v else instOf S q := by
  unfold setInst
  cases hg : get? p S.nodes with
  | none =>
    have := get?_eq_none.1 hg
    simp [this]
  | some n =>
    have hk : p ∈ keys S.nodes := get?_isSome.1 (by rw [hg]; rfl)
    simp only [instOf, get?_set]
    by_cases h : q = p
    · simp [h, hk]
    · simp [h]

theorem keys_setInst (S : St) (p v : Str) : keys (setInst S p v).nodes = keys S.nodes := by
  unfold setInst
  cases hg : get? p S.nodes with
  | none => rfl
  | some n =>
    have hk : p ∈ keys S.nodes := get?_isSome.1 (by rw [hg]; rfl)
    simp only [keys_set, if_pos hk]

theorem dirty_setInst (S : St) (p v : Str) : (setInst S p v).dirty = S.dirty := by
  unfold setInst
  cases get? p S.nodes <;> rfl

theorem instOf_setOrder (S : St) (p : Str) (o : List Str) (q : Str) :
    instOf (setOrder S p o) q = instOf S q := by
  unfold setOrder
  cases hg : get? p S.nodes with
  | none => rfl
  | some n =>
    simp only [instOf, get?_set]
    by_cases h : q = p
    · simp [h, hg]
    · simp [h]

theorem keys_setOrder (S : St) (p : Str) (o : List Str) : keys (setOrder S p o).nodes = keys S.nodes := by
  unfold setOrder
  cases hg : get? p S.nodes with
  | none => rfl
  | some n =>
    have hk : p ∈ keys S.nodes := get?_isSome.1 (by rw [hg]; rfl)
    simp only [keys_set, if_pos hk]

theorem dirty_setOrder (S : St) (p : Str) (o : List Str) : (setOrder S p o).dirty = S.dirty := by
  unfold setOrder
  cases get? p S.nodes <;> rfl

theorem instOf_addProxy (S : St) (t c q : Str) :
    instOf (addProxy S t c) q = if q = t then some c else instOf S q := by
  unfold addProxy
  simp only
  split
  · simp only [instOf, get?_set]
    split <;> rfl
  · rw [instOf_setOrder]
    simp only [instOf, get?_set]
    split <;> rfl

theorem mem_keys_addProxy (S : St) (t c q : Str) :
    q ∈ keys (addProxy S t c).nodes ↔ q = t ∨ q ∈ keys S.nodes := by
  unfold addProxy
  simp only
  split
  · exact mem_keys_set
  · rw [keys_setOrder]; exact mem_keys_set

theorem keys_addProxy {S : St} {t : Str} (c : Str) (h : t ∉ keys S.nodes) :
    keys (addProxy S t c).nodes = keys S.nodes ++ [t] := by
  unfold addProxy
  simp only
  split
  · simp only [keys_set, if_neg h]
  · rw [keys_setOrder]; simp only [keys_set, if_neg h]

theorem dirty_addProxy (S : St) (t c : Str) : (addProxy S t c).dirty = S.dirty := by
  unfold addProxy
  simp only
  split
  · rfl
  · rw [dirty_setOrder]

theorem depends_extend {same : Str → Str → Bool} {m : Dict Str (List Str)} {p c a b : Str}
    (h : Depends (Dirty.extend same m p c) a b) : Depends m a b ∨ (a = p ∧ b = c ∧ p ≠ WORLD) := by
  rw [← Dirty.mem_concerns, Dirty.concerns_extend] at h
  split at h
  · rename_i hc
    rcases List.mem_append.1 h with h | h
    · exact .inl (by rw [hc.1]; exact Dirty.mem_concerns.1 h)
    · exact .inr ⟨hc.1, List.mem_singleton.1 h, hc.2.1⟩
  · exact .inl (Dirty.mem_concerns.1 h)

/-- The dependants of a node. -/
theorem mem_dirties {m : Dict Str (List Str)} (h : Dirty.NodupMap m) (p q : Str) :
    q ∈ dirties m p ↔ Reach m p q := by
  unfold dirties Dirty.nodeDirties
  have hn : (Dirty.concerns m p).Nodup := (Dirty.nodup_concerns.1 h).2 p
  obtain ⟨r, h1, -, -, h4⟩ := Dirty.dirtyLoop_spec m p ((m.flatMap Prod.snd).length + 2) (Dirty.concerns m p)
    (p :: Dirty.concerns m p) (by
      have : Dirty.left (Dirty.allDeps m) (Dirty.concerns m p) ≤ (m.flatMap Prod.snd).length :=
        List.length_filter_le _ _
      omega) hn (fun x hx => .one (Dirty.mem_concerns.1 hx)) (fun x hx => List.mem_cons.1 hx)
    (fun x y hx hxn => absurd (List.mem_cons.2 hx) hxn)
  rw [h1]
  exact h4 q

end Nxt.Proxies
