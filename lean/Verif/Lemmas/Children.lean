import Verif.Lemmas.Forest
import Verif.Lemmas.Dict
import Verif.Lemmas.Path
import Verif.Props.Path
/-!
# Lemmas about the tree queries
-/
namespace Nxt.Tree
open Dict Spec Path

theorem addMissing_spec (more acc : List Str) (h : acc.Nodup) :
    (addMissing acc more).Nodup ∧ (∀ x, x ∈ addMissing acc more ↔ x ∈ acc ∨ x ∈ more) ∧
    ∃ e, addMissing acc more = acc ++ e ∧ e.Sublist more := by
  unfold addMissing
  induction more generalizing acc with
  | nil => exact ⟨h, fun x => by simp, [], by simp, List.Sublist.refl _⟩
  | cons y ys ih =>
    rw [List.foldl_cons]
    split
    · rename_i hy
      obtain ⟨h1, h2, e, h3, h4⟩ := ih acc h
      refine ⟨h1, fun x => ?_, e, h3, h4.cons _⟩
      rw [h2, List.mem_cons]
      constructor
      · rintro (h | h)
        · exact .inl h
        · exact .inr (.inr h)
      · rintro (h | rfl | h)
        · exact .inl h
        · exact .inl hy
        · exact .inr h
    · rename_i hy
      have hn : (acc ++ [y]).Nodup := by
        rw [List.nodup_append]
        exact ⟨h, List.nodup_cons.2 ⟨by simp, List.nodup_nil⟩, by
          rintro a ha b hb rfl
          rw [List.mem_singleton] at hb
          exact hy (hb ▸ ha)⟩
      obtain ⟨h1, h2, e, h3, h4⟩ := ih _ hn
      refine ⟨h1, fun x => ?_, y :: e, by rw [h3]; simp, h4.cons_cons _⟩
      rw [h2, List.mem_append, List.mem_singleton, List.mem_cons, or_assoc]

/-- Adding items none of which is missing. -/
theorem addMissing_filter (acc more : List Str) (hm : more.Nodup) :
    addMissing acc more = acc ++ more.filter (· ∉ acc) := by
  unfold addMissing
  induction more generalizing acc with
  | nil => simp
  | cons y ys ih =>
    obtain ⟨h1, h2⟩ := List.nodup_cons.1 hm
    rw [List.foldl_cons]
    split
    · rename_i hy
      rw [ih _ h2, List.filter_cons_of_neg (by simp [hy])]
    · rename_i hy
      rw [ih _ h2, List.filter_cons_of_pos (by simp [hy]), List.append_assoc]
      congr 1
      rw [List.singleton_append]
      congr 1
      apply List.filter_congr
      intro x hx
      have : x ≠ y := by rintro rfl; exact h1 hx
      simp [this]

theorem implied_spec (nodes : Nodes) (p : Str) :
    (implied nodes p).Nodup ∧ ∀ t, t ∈ implied nodes p ↔
      ∃ path ∈ keys nodes, Path.isAncestor path p = true ∧
        t = Path.trimToDepth path (Path.pathDepth p + 1) := by
  unfold implied
  have key : ∀ (l acc : List Str), acc.Nodup → (l.foldl (impliedStep p) acc).Nodup ∧
      ∀ t, t ∈ l.foldl (impliedStep p) acc ↔ t ∈ acc ∨ ∃ path ∈ l, Path.isAncestor path p = true ∧
        t = Path.trimToDepth path (Path.pathDepth p + 1) := by
    intro l
    induction l with
    | nil => intro acc h; exact ⟨h, fun t => by simp⟩
    | cons y ys ih =>
      intro acc h
      rw [List.foldl_cons]
      have hs : (impliedStep p acc y).Nodup ∧ ∀ t, t ∈ impliedStep p acc y ↔ t ∈ acc ∨
          (Path.isAncestor y p = true ∧ t = Path.trimToDepth y (Path.pathDepth p + 1)) := by
        unfold impliedStep
        split
        · rename_i ha
          simp only
          split
          · rename_i ht
            refine ⟨h, fun t => ⟨.inl, ?_⟩⟩
            rintro (h | ⟨-, rfl⟩)
            · exact h
            · exact ht
          · rename_i ht
            constructor
            · rw [List.nodup_append]
              refine ⟨h, List.nodup_cons.2 ⟨by simp, List.nodup_nil⟩, ?_⟩
              rintro a ha b hb rfl
              rw [List.mem_singleton] at hb
              exact ht (hb ▸ ha)
            · intro t
              simp [ha]
        · rename_i ha
          exact ⟨h, fun t => by simp [ha]⟩
      obtain ⟨h1, h2⟩ := ih _ hs.1
      refine ⟨h1, fun t => ?_⟩
      rw [h2, hs.2]
      simp only [List.mem_cons, exists_eq_or_imp, or_assoc]
  obtain ⟨h1, h2⟩ := key (keys nodes) [] List.nodup_nil
  exact ⟨h1, fun t => by rw [h2]; simp⟩

theorem keys_shape {nodes : Nodes} (T : TreeOk nodes) {q : Str} (h : q ∈ keys nodes) :
    ∃ ns, Names ns ∧ q = render ns := by
  obtain ⟨n, hn⟩ := mem_keys.1 h
  rcases T.node q n hn with ⟨h, -⟩ | ⟨ns, x, h1, h2, -⟩
  · exact ⟨[], names_nil, h⟩
  · exact ⟨ns ++ [x], h1, h2⟩

theorem render_ne_empty (ns : List Str) : render ns ≠ [] := by
  unfold render
  split
  · simp
  · rename_i h; exact fun he => h (slashed_eq_nil.1 he)

theorem kids_spec {nodes : Nodes} {kids : Str → Nodes} (T : TreeOk nodes) (K : KidsOk nodes kids) (p : Str)
    (hp : p ≠ []) : (keys (kids p)).Nodup ∧ ∀ q, q ∈ keys (kids p) ↔ IsChild nodes p q := by
  have hperm := K p hp
  have hk : (keys (kids p)).Perm (keys (nodes.filter (fun e => e.2.parent = p))) := hperm.map _
  constructor
  · rw [hk.nodup_iff]
    exact (List.filter_sublist.map Prod.fst).nodup T.ok
  · intro q
    rw [hk.mem_iff, mem_keys]
    constructor
    · rintro ⟨n, hn⟩
      rw [List.mem_filter] at hn
      obtain ⟨hn, hpar⟩ := hn
      have hpar : n.parent = p := by simpa using hpar
      rcases T.node q n hn with ⟨-, h, -⟩ | ⟨ns, x, h1, h2, h3, -⟩
      · rw [h] at hpar; exact absurd hpar.symm hp
      · exact ⟨ns, x, h1, by rw [← hpar, h3], h2, mem_keys_of_mem hn⟩
    · rintro ⟨ns, x, h1, h2, h3, h4⟩
      obtain ⟨n, hn⟩ := mem_keys.1 h4
      refine ⟨n, List.mem_filter.2 ⟨hn, ?_⟩⟩
      rcases T.node q n hn with ⟨h, -⟩ | ⟨ns', x', h1', h2', h3', -⟩
      · rw [h3] at h
        have := (render_eq_world h1).1 h
        simp at this
      · have := render_inj h1 h1' (h3 ▸ h2')
        have e := List.append_inj' this rfl
        simp only [decide_eq_true_eq]
        rw [h3', h2, e.1]

theorem mem_implied {nodes : Nodes} (T : TreeOk nodes) (ms : List Str) (hm : Names ms) (t : Str) :
    t ∈ implied nodes (render ms) ↔ IsImplied nodes (render ms) t ∨
      (ms = [] ∧ t = ['/'] ∧ ['/'] ∈ keys nodes) := by
  rw [(implied_spec nodes (render ms)).2, Props.C11_depth ms hm]
  constructor
  · rintro ⟨path, hpath, ha, rfl⟩
    obtain ⟨ns, hns, rfl⟩ := keys_shape T hpath
    rw [Props.C11_trim ns hns]
    rw [Props.C10_is_ancestor ns ms hns hm] at ha
    have main : ∀ rest, rest ≠ [] → ns = ms ++ rest → IsImplied nodes (render ms) (render (ns.take (ms.length + 1))) := by
      rintro rest hr rfl
      obtain ⟨x, rest, rfl⟩ := List.exists_cons_of_ne_nil hr
      refine ⟨ms, x, rest, ?_, rfl, ?_, ?_⟩
      · simpa using hns
      · congr 1
        rw [List.take_append, List.take_of_length_le (by omega), Nat.add_sub_cancel_left]
        simp
      · simpa using hpath
    rcases ha with rfl | ⟨rest, hr, he⟩
    · by_cases h0 : ns = []
      · subst h0
        exact .inr ⟨rfl, rfl, hpath⟩
      · exact .inl (main ns h0 rfl)
    · exact .inl (main rest hr he)
  · rintro (⟨ns, x, rest, h1, h2, rfl, h4⟩ | ⟨rfl, rfl, h⟩)
    · have hns : Names ns := (names_append.1 (names_append.1 h1).1).1
      have := render_inj hm hns h2
      subst this
      refine ⟨_, h4, ?_, ?_⟩
      · rw [Props.C10_is_ancestor _ _ h1 hns]
        exact .inr ⟨[x] ++ rest, by simp, by simp⟩
      · rw [Props.C11_trim _ h1]
        congr 1
        simp [List.take_append, List.take_of_length_le]
    · exact ⟨_, h, by decide, by decide⟩

theorem childPaths_real {nodes : Nodes} {kids : Str → Nodes} (T : TreeOk nodes) (K : KidsOk nodes kids) (p : Str) :
    (childPaths nodes (kids p) p false).Nodup ∧ ∀ q, q ∈ childPaths nodes (kids p) p false ↔ IsChild nodes p q := by
  unfold childPaths
  split
  · rename_i hp
    subst hp
    refine ⟨List.nodup_nil, fun q => ?_⟩
    constructor
    · intro h; cases h
    · rintro ⟨ns, x, -, h, -⟩; exact absurd h.symm (render_ne_empty ns)
  · rename_i hp
    exact kids_spec T K p hp

theorem isImplied_of_isChild {nodes : Nodes} {p q : Str} (h : IsChild nodes p q) : IsImplied nodes p q := by
  obtain ⟨ns, x, h1, h2, h3, h4⟩ := h
  exact ⟨ns, x, [], by simpa using h1, h2, h3, by rw [List.append_nil, ← h3]; exact h4⟩

theorem childPaths_implied {nodes : Nodes} {kids : Str → Nodes} (T : TreeOk nodes) (K : KidsOk nodes kids)
    (ms : List Str) (hm : Names ms) :
    (childPaths nodes (kids (render ms)) (render ms) true).Nodup ∧
    ∀ q, q ∈ childPaths nodes (kids (render ms)) (render ms) true ↔ IsImplied nodes (render ms) q ∨
      (ms = [] ∧ q = ['/'] ∧ ['/'] ∈ keys nodes) := by
  unfold childPaths
  rw [if_neg (render_ne_empty ms)]
  simp only [if_true]
  obtain ⟨k1, k2⟩ := kids_spec T K (render ms) (render_ne_empty ms)
  obtain ⟨h1, h2, -⟩ := addMissing_spec (implied nodes (render ms)) _ k1
  refine ⟨h1, fun q => ?_⟩
  rw [h2, k2, mem_implied T ms hm]
  constructor
  · rintro (h | h)
    · exact .inl (isImplied_of_isChild h)
    · exact h
  · exact .inr

theorem exists_bound (l : List Str) : ∃ D, ∀ q ∈ l, Path.pathDepth q ≤ D := by
  induction l with
  | nil => exact ⟨0, by simp⟩
  | cons a l ih =>
    obtain ⟨D, h⟩ := ih
    refine ⟨max (Path.pathDepth a) D, fun q hq => ?_⟩
    rcases List.mem_cons.1 hq with rfl | hq
    · exact Nat.le_max_left _ _
    · exact Nat.le_trans (h q hq) (Nat.le_max_right _ _)

/-- Paths other than the world. -/
def Proper (p : Str) : Prop := ∃ ns, Names ns ∧ ns ≠ [] ∧ p = render ns

theorem forest_of {nodes : Nodes} {ch : Str → List Str} {D : Nat}
    (hD : ∀ q ∈ keys nodes, Path.pathDepth q ≤ D) (hn : ∀ p, Proper p → (ch p).Nodup)
    (hmem : ∀ p q, Proper p → q ∈ ch p → IsImplied nodes p q) :
    Forest ch Proper Path.pathDepth D where
  dom_ch p q hp hq := by
    obtain ⟨ns, x, rest, h1, -, h3, -⟩ := hmem p q hp hq
    exact ⟨ns ++ [x], (names_append.1 h1).1, by simp, h3⟩
  nodup := hn
  uniq p p' q hp hp' h h' := by
    obtain ⟨ns, x, rest, h1, h2, h3, -⟩ := hmem p q hp h
    obtain ⟨ns', x', rest', h1', h2', h3', -⟩ := hmem p' q hp' h'
    have := render_inj (names_append.1 h1).1 (names_append.1 h1').1 (h3 ▸ h3')
    rw [h2, h2', (List.append_inj' this rfl).1]
  succ p q hp h := by
    obtain ⟨ns, x, rest, h1, h2, h3, -⟩ := hmem p q hp h
    have hnx := (names_append.1 h1).1
    rw [h2, h3, Props.C11_depth _ hnx, Props.C11_depth _ (names_append.1 hnx).1]
    simp
  bound p q hp h := by
    obtain ⟨ns, x, rest, h1, h2, h3, h4⟩ := hmem p q hp h
    have hnx := (names_append.1 h1).1
    have := hD _ h4
    rw [Props.C11_depth _ h1] at this
    rw [h3, Props.C11_depth _ hnx]
    simp at this ⊢
    omega

theorem below_congr {c1 c2 : Str → Str → Prop} {p : Str} (hp : Proper p)
    (h : ∀ a b, Proper a → (c1 a b ↔ c2 a b)) (hd : ∀ a b, Proper a → c2 a b → Proper b) (q : Str) :
    Below c1 p q ↔ Below c2 p q := by
  have key : ∀ q, Below c1 p q → Below c2 p q ∧ Proper q := by
    intro q hq
    induction hq with
    | one hc => exact ⟨.one ((h _ _ hp).1 hc), hd _ _ hp ((h _ _ hp).1 hc)⟩
    | step _ hc ih => exact ⟨.step ih.1 ((h _ _ ih.2).1 hc), hd _ _ ih.2 ((h _ _ ih.2).1 hc)⟩
  have key2 : ∀ q, Below c2 p q → Below c1 p q ∧ Proper q := by
    intro q hq
    induction hq with
    | one hc => exact ⟨.one ((h _ _ hp).2 hc), hd _ _ hp hc⟩
    | step _ hc ih => exact ⟨.step ih.1 ((h _ _ ih.2).2 hc), hd _ _ ih.2 hc⟩
  exact ⟨fun hq => (key q hq).1, fun hq => (key2 q hq).1⟩

theorem below_isChild {nodes : Nodes} (p q : Str) :
    Below (IsChild nodes) p q ↔ IsDescendant nodes p q := by
  constructor
  · intro h
    induction h with
    | one h =>
      obtain ⟨ns, x, h1, h2, h3, h4⟩ := h
      refine ⟨ns, [x], h1, by simp, h2, h3, ?_⟩
      intro a b hab ha
      have : a = [x] := by
        cases a with
        | nil => exact absurd rfl ha
        | cons y a =>
          simp only [List.cons_append, List.cons.injEq, List.nil_eq, List.append_eq_nil_iff] at hab
          rw [hab.1, hab.2.1]
      rw [this, ← h3]; exact h4
    | step _ h ih =>
      obtain ⟨ns, rest, r1, r2, r3, r4, r5⟩ := ih
      obtain ⟨ms, x, h1, h2, h3, h4⟩ := h
      have := render_inj r1 (names_append.1 h1).1 (r4 ▸ h2)
      subst this
      refine ⟨ns, rest ++ [x], by simpa using h1, by simp, r3, by simpa using h3, ?_⟩
      intro a b hab ha
      rcases eq_nil_or_snoc b with rfl | ⟨b', y, rfl⟩
      · rw [List.append_nil] at hab
        rw [← hab]
        rw [h3] at h4
        simpa using h4
      · rw [← List.append_assoc] at hab
        exact r5 a b' (List.append_inj' hab rfl).1 ha
  · rintro ⟨ns, rest, h1, h2, rfl, rfl, h5⟩
    have key : ∀ k, ∀ rest : List Str, rest.length = k → rest ≠ [] → Names (ns ++ rest) →
        (∀ a b, rest = a ++ b → a ≠ [] → render (ns ++ a) ∈ keys nodes) →
        Below (IsChild nodes) (render ns) (render (ns ++ rest)) := by
      intro k
      induction k with
      | zero => intro rest hl h; exact absurd (List.length_eq_zero_iff.1 hl) h
      | succ k ih =>
        intro rest hl h hn hk
        rcases eq_nil_or_snoc rest with rfl | ⟨m, x, rfl⟩
        · exact absurd rfl h
        · have hlast : IsChild nodes (render (ns ++ m)) (render (ns ++ (m ++ [x]))) :=
            ⟨ns ++ m, x, by simpa using hn, rfl, by simp, hk (m ++ [x]) [] (by simp) (by simp)⟩
          by_cases hm : m = []
          · subst hm
            rw [List.append_nil] at hlast
            exact .one hlast
          · refine .step (ih m (by simpa using hl) hm ?_ ?_) hlast
            · exact (names_append.1 (by simpa using hn : Names (ns ++ m ++ [x]))).1
            · intro a b hab ha
              exact hk a (b ++ [x]) (by rw [hab]; simp) ha
    exact key _ rest rfl h2 h1 h5

theorem below_isImplied {nodes : Nodes} (p q : Str) :
    Below (IsImplied nodes) p q ↔ IsImpliedDescendant nodes p q := by
  constructor
  · intro h
    induction h with
    | one h =>
      obtain ⟨ns, x, rest, h1, h2, h3, h4⟩ := h
      exact ⟨ns, [x], rest, h1, by simp, h2, h3, h4⟩
    | step _ h ih =>
      obtain ⟨ns, rest, more, r1, r2, r3, r4, -⟩ := ih
      obtain ⟨ms, x, more', h1, h2, h3, h4⟩ := h
      have := render_inj (names_append.1 r1).1 (names_append.1 (names_append.1 h1).1).1 (r4 ▸ h2)
      subst this
      exact ⟨ns, rest ++ [x], more', by simpa using h1, by simp, r3, by simpa using h3, by simpa using h4⟩
  · rintro ⟨ns, rest, more, h1, h2, rfl, rfl, h5⟩
    have key : ∀ k, ∀ rest more : List Str, rest.length = k → rest ≠ [] → Names (ns ++ rest ++ more) →
        render (ns ++ rest ++ more) ∈ keys nodes →
        Below (IsImplied nodes) (render ns) (render (ns ++ rest)) := by
      intro k
      induction k with
      | zero => intro rest more hl h; exact absurd (List.length_eq_zero_iff.1 hl) h
      | succ k ih =>
        intro rest more hl h hn hk
        rcases eq_nil_or_snoc rest with rfl | ⟨m, x, rfl⟩
        · exact absurd rfl h
        · have hlast : IsImplied nodes (render (ns ++ m)) (render (ns ++ (m ++ [x]))) :=
            ⟨ns ++ m, x, more, by simpa using hn, rfl, by simp, by simpa using hk⟩
          by_cases hm : m = []
          · subst hm
            rw [List.append_nil] at hlast
            exact .one hlast
          · refine .step (ih m ([x] ++ more) (by simpa using hl) hm ?_ ?_) hlast
            · simpa using hn
            · simpa using hk
    exact key _ rest more rfl h2 h1 h5

/-- The last name of children of one path tells them apart. -/
theorem nodeName_inj {nodes : Nodes} {p a b : Str} (ha : IsImplied nodes p a) (hb : IsImplied nodes p b)
    (h : Path.nodeName a = Path.nodeName b) : a = b := by
  obtain ⟨ns, x, rest, h1, h2, h3, -⟩ := ha
  obtain ⟨ns', x', rest', h1', h2', h3', -⟩ := hb
  have n1 := (names_append.1 h1).1
  have n2 := (names_append.1 h1').1
  have := render_inj (names_append.1 n1).1 (names_append.1 n2).1 (h2 ▸ h2')
  subst this
  rw [h3, h3', (Props.C09_parent_name_join ns x n1).2.1, (Props.C09_parent_name_join ns x' n2).2.1] at h
  rw [h3, h3', h]

theorem filter_name {ps : List Str} (hn : ps.Nodup)
    (hinj : ∀ a ∈ ps, ∀ b ∈ ps, Path.nodeName a = Path.nodeName b → a = b) (c : Str) :
    (ps.filter (fun p => Path.nodeName p = c)).map Path.nodeName = if c ∈ ps.map Path.nodeName then [c] else [] := by
  induction ps with
  | nil => rfl
  | cons a ps ih =>
    obtain ⟨h1, h2⟩ := List.nodup_cons.1 hn
    have ih := ih h2 (fun x hx y hy => hinj x (List.mem_cons_of_mem _ hx) y (List.mem_cons_of_mem _ hy))
    by_cases ha : Path.nodeName a = c
    · rw [List.filter_cons_of_pos (by simpa using ha), List.map_cons, ih, if_neg, if_pos]
      · rw [ha]
      · rw [List.map_cons, ha]; exact List.mem_cons_self
      · intro hc
        obtain ⟨b, hb, hbc⟩ := List.mem_map.1 hc
        have := hinj a List.mem_cons_self b (List.mem_cons_of_mem _ hb) (by rw [ha, hbc])
        exact h1 (this ▸ hb)
    · rw [List.filter_cons_of_neg (by simpa using ha), ih]
      have : c ∈ (a :: ps).map Path.nodeName ↔ c ∈ ps.map Path.nodeName := by
        rw [List.map_cons, List.mem_cons]
        exact ⟨fun h => h.resolve_left (Ne.symm ha), .inr⟩
      simp only [this]

/-- Ordering of child paths. -/
theorem orderPaths_spec {co ps : List Str} (hco : co.Nodup) (hn : ps.Nodup)
    (hinj : ∀ a ∈ ps, ∀ b ∈ ps, Path.nodeName a = Path.nodeName b → a = b) :
    (orderPaths co ps).Nodup ∧ (∀ x, x ∈ orderPaths co ps ↔ x ∈ ps) ∧
    ∃ listed, orderPaths co ps = listed ++ ps.filter (fun p => Path.nodeName p ∉ co) ∧
      listed.map Path.nodeName = co.filter (· ∈ ps.map Path.nodeName) := by
  unfold orderPaths
  split
  · rename_i h
    subst h
    refine ⟨hn, fun x => Iff.rfl, [], ?_, rfl⟩
    rw [List.nil_append, List.filter_eq_self.2]
    simp
  · have hnl : (co.flatMap (fun c => ps.filter (fun p => Path.nodeName p = c))).Nodup := by
      apply nodup_flatMap hco
      · intro c _; exact List.filter_sublist.nodup hn
      · intro a _ b _ hab x hx hx'
        have h1 : Path.nodeName x = a := by simpa using (List.mem_filter.1 hx).2
        have h2 : Path.nodeName x = b := by simpa using (List.mem_filter.1 hx').2
        exact hab (h1 ▸ h2)
    have hml : ∀ x, x ∈ co.flatMap (fun c => ps.filter (fun p => Path.nodeName p = c)) ↔
        x ∈ ps ∧ Path.nodeName x ∈ co := by
      intro x
      rw [List.mem_flatMap]
      constructor
      · rintro ⟨c, hc, hx⟩
        rw [List.mem_filter] at hx
        have : Path.nodeName x = c := by simpa using hx.2
        exact ⟨hx.1, this ▸ hc⟩
      · rintro ⟨h1, h2⟩
        exact ⟨_, h2, List.mem_filter.2 ⟨h1, by simp⟩⟩
    obtain ⟨s1, s2, -⟩ := addMissing_spec ps _ hnl
    refine ⟨s1, fun x => ?_, co.flatMap (fun c => ps.filter (fun p => Path.nodeName p = c)), ?_, ?_⟩
    · rw [s2, hml]
      exact ⟨fun h => h.elim (fun h => h.1) id, .inr⟩
    · rw [addMissing_filter _ _ hn]
      congr 1
      apply List.filter_congr
      intro x hx
      have := hml x
      simp only [hx, true_and] at this
      simp only [this]
    · clear s1 s2 hml hnl hco
      rename_i hne
      clear hne
      induction co with
      | nil => rfl
      | cons c co ih =>
        rw [List.flatMap_cons, List.map_append, ih, filter_name hn hinj, List.filter_cons]
        by_cases hc : c ∈ ps.map Path.nodeName
        · rw [if_pos hc, if_pos (by simpa using hc)]; rfl
        · rw [if_neg hc, if_neg (by simpa using hc)]; rfl

end Nxt.Tree
