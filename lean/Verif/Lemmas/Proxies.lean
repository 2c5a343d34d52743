import Verif.Lemmas.ProxyBasics
/-!
# What holds while proxies are made
-/
namespace Nxt.Proxies
open Dict Spec Path

variable {N : List Str → Option (Option Str)}

/-- The names in a fact are legal, and nothing is an instance of the world. -/
theorem made_names {f : Fact} (h : Made N f) : match f with
    | .node p => Names p
    | .inst p r => Names p ∧ Names r ∧ r ≠ [] := by
  induction h with
  | node h => exact h
  | inst h1 _ h3 => exact ⟨h1, h3.2.1, h3.1⟩
  | copyNode _ _ _ ih1 _ ih3 =>
    exact names_append.2 ⟨ih1.1, fun n hn => by rw [List.mem_singleton.1 hn]; exact ih3 _ (by simp)⟩
  | @copyInst p r rest x _ _ _ _ ih1 _ ih3 =>
    have hx : Names [x] := fun n hn => by rw [List.mem_singleton.1 hn]; exact ih3 _ (by simp)
    exact ⟨names_append.2 ⟨ih1.1, hx⟩, names_append.2 ⟨ih1.2.1, hx⟩, by simp⟩

theorem _root_.Nxt.Spec.Made.names {p : List Str} (h : Made N (.node p)) : Names p := made_names h
theorem _root_.Nxt.Spec.Made.inst_names {p r : List Str} (h : Made N (.inst p r)) : Names p ∧ Names r ∧ r ≠ [] := made_names h

/-- The world is an instance of nothing. -/
theorem _root_.Nxt.Spec.Made.ne_world (hw : ∀ i, N [] = some (some i) → i = []) {f : Fact} (h : Made N f) :
    ∀ r, f ≠ .inst [] r := by
  induction h with
  | node => intro r h; cases h
  | @inst p r i _ h2 h3 =>
    intro r' he
    cases he
    have := hw i h2
    subst this
    obtain ⟨-, -, h | ⟨h, -⟩⟩ := h3
    · have := head_render r
      rw [← h] at this
      cases this
    · exact h rfl
  | copyNode => intro r h; cases h
  | @copyInst p r rest x => intro r' h; simp at h

/-- What holds of the layer while proxies are made. -/
structure Good (N : List Str → Option (Option Str)) (S : St) : Prop where
  ok : Ok S.nodes
  node : ∀ q ∈ keys S.nodes, ∃ p, q = render p ∧ Made N (.node p)
  init : ∀ p, Names p → N p ≠ none → render p ∈ keys S.nodes
  blocked : ∀ p, Names p → N p = some (some []) → instOf S (render p) = some []
  inst : ∀ p i r, Names p → instOf S (render p) = some i → PointsTo i p r → Made N (.inst p r)
  world : ∀ i, instOf S (render []) = some i → i = []
  dirty : ∀ a b, Names a → Depends S.dirty (render a) b → ∃ p, b = render p ∧ Made N (.inst p a)
  nodup : Dirty.NodupMap S.dirty
  origin : ∀ p i, Names p → instOf S (render p) = some i → i = [] ∨ ¬ NoInst N p
  proxy : ∀ p, Names p → N p = none → render p ∈ keys S.nodes →
    ∃ a, instOf S (render p) = some (render a) ∧ Made N (.inst p a)
  sure : Uniq N → ∀ p r x rest, render p ∈ keys S.nodes → Made N (.inst p r) → Made N (.node (r ++ x :: rest)) →
    ∃ i, instOf S (render p) = some i ∧ PointsTo i p r

theorem Good.paths {S : St} (h : Good N S) : ∀ q ∈ keys S.nodes, ∃ p, Names p ∧ q = render p := by
  intro q hq
  obtain ⟨p, h1, h2⟩ := h.node q hq
  exact ⟨p, h2.names, h1⟩

theorem good_start {S : St} (h : Start S) : Good (nodesOf S) S where
  ok := h.ok
  node := by
    intro q hq
    obtain ⟨p, h1, rfl⟩ := h.path q hq
    obtain ⟨n, hn⟩ := Option.isSome_iff_exists.1 (get?_isSome.2 hq)
    exact ⟨p, rfl, .node (i := n.inst) h1 (by unfold nodesOf; rw [hn]; rfl)⟩
  init := by
    intro p _ hn
    unfold nodesOf at hn
    rw [← get?_isSome]
    cases hg : get? (render p) S.nodes with
    | none => rw [hg] at hn; exact absurd rfl hn
    | some n => rfl
  blocked := by
    intro p _ hn
    unfold nodesOf at hn
    unfold instOf
    cases hg : get? (render p) S.nodes with
    | none => rw [hg] at hn; cases hn
    | some n => rw [hg] at hn; exact Option.some.inj hn
  inst := by
    intro p i r hp hi hr
    refine .inst hp ?_ hr
    unfold instOf at hi
    unfold nodesOf
    cases hg : get? (render p) S.nodes with
    | none => rw [hg] at hi; cases hi
    | some n => rw [hg] at hi; exact congrArg some hi
  world := by
    intro i hi
    refine h.world i ?_
    unfold instOf at hi
    unfold nodesOf
    cases hg : get? (render []) S.nodes with
    | none => rw [hg] at hi; cases hi
    | some n => rw [hg] at hi; exact congrArg some hi
  dirty := by
    rintro a b - ⟨l, hl, -⟩
    rw [h.dirty] at hl
    cases hl
  nodup := by
    rw [h.dirty]
    exact ⟨ok_nil, fun p l hl => by cases hl⟩
  origin := by
    intro p i hp hi
    by_cases h0 : i = []
    · exact .inl h0
    · refine .inr (fun hN => h0 (hN.1 i ?_))
      unfold instOf at hi
      unfold nodesOf
      cases hg : get? (render p) S.nodes with
      | none => rw [hg] at hi; cases hi
      | some n => rw [hg] at hi; exact congrArg some hi
  proxy := by
    intro p _ hN hk
    unfold nodesOf at hN
    rw [Option.map_eq_none_iff, get?_eq_none] at hN
    exact absurd hk hN
  sure := by
    intro U p r x rest hk h1 h2
    obtain ⟨n, hn⟩ := Option.isSome_iff_exists.1 (get?_isSome.2 hk)
    have hN : nodesOf S p = some n.inst := by unfold nodesOf; rw [hn]; rfl
    obtain ⟨t, ht, hp⟩ := U.early p r n.inst x rest hN h1 h2
    exact ⟨t, by unfold instOf; rw [hn]; exact ht, hp⟩

theorem good_congr {S T : St} (h : Good N S) (h1 : keys T.nodes = keys S.nodes)
    (h2 : ∀ q, instOf T q = instOf S q) (h3 : T.dirty = S.dirty) : Good N T where
  ok := by unfold Ok; rw [h1]; exact h.ok
  node := by rw [h1]; exact h.node
  init := by rw [h1]; exact h.init
  blocked := by intro p; rw [h2]; exact h.blocked p
  inst := by intro p i r; rw [h2]; exact h.inst p i r
  world := by intro i; rw [h2]; exact h.world i
  dirty := by rw [h3]; exact h.dirty
  nodup := by rw [h3]; exact h.nodup
  origin := by intro p i; rw [h2]; exact h.origin p i
  proxy := by intro p; rw [h1, h2]; exact h.proxy p
  sure := by intro U p r x rest; rw [h1, h2]; exact h.sure U p r x rest

theorem good_setOrder {S : St} (h : Good N S) (p : Str) (o : List Str) : Good N (setOrder S p o) :=
  good_congr h (keys_setOrder S p o) (instOf_setOrder S p o) (dirty_setOrder S p o)

theorem good_setInst {S : St} (h : Good N S) {p : List Str} {v : Str} (hp : Names p) (h0 : p ≠ [])
    (hb : N p ≠ some (some [])) (ho : ¬ NoInst N p)
    (hx : N p = none → ∃ a, v = render a ∧ Made N (.inst p a)) (hv : ∀ a, PointsTo v p a → Made N (.inst p a))
    (hs : Uniq N → ∀ a x rest, Made N (.inst p a) → Made N (.node (a ++ x :: rest)) → PointsTo v p a) :
    Good N (setInst S (render p) v) where
  ok := by unfold Ok; rw [keys_setInst]; exact h.ok
  node := by rw [keys_setInst]; exact h.node
  init := by rw [keys_setInst]; exact h.init
  blocked := by
    intro q hq hN
    rw [instOf_setInst, if_neg]
    · exact h.blocked q hq hN
    · rintro ⟨he, -⟩
      have := render_inj hq hp he
      subst this
      exact hb hN
  inst := by
    intro q i a hq hi ha
    rw [instOf_setInst] at hi
    split at hi
    · rename_i he
      have := render_inj hq hp he.1
      subst this
      cases hi
      exact hv a ha
    · exact h.inst q i a hq hi ha
  world := by
    intro i hi
    rw [instOf_setInst, if_neg] at hi
    · exact h.world i hi
    · rintro ⟨he, -⟩
      exact h0 (render_inj names_nil hp he).symm
  dirty := by rw [dirty_setInst]; exact h.dirty
  nodup := by rw [dirty_setInst]; exact h.nodup
  origin := by
    intro q i hq hi
    rw [instOf_setInst] at hi
    split at hi
    · rename_i he
      rw [render_inj hq hp he.1]
      exact .inr ho
    · exact h.origin q i hq hi
  proxy := by
    intro q hq hN hk
    rw [keys_setInst] at hk
    rw [instOf_setInst]
    split
    · rename_i he
      have := render_inj hq hp he.1
      subst this
      obtain ⟨a, rfl, ha⟩ := hx hN
      exact ⟨a, rfl, ha⟩
    · exact h.proxy q hq hN hk
  sure := by
    intro U q a x rest hk h1 h2
    rw [keys_setInst] at hk
    rw [instOf_setInst]
    split
    · rename_i he
      have := render_inj h1.inst_names.1 hp he.1
      subst this
      exact ⟨v, rfl, hs U a x rest h1 h2⟩
    · exact h.sure U q a x rest hk h1 h2

theorem good_extend {S : St} (h : Good N S) {p : List Str} {r : Str} (same : Str → Str → Bool)
    (hr : ∀ a, Names a → a ≠ [] → r = render a → Made N (.inst p a)) :
    Good N { S with dirty := Dirty.extend same S.dirty r (render p) } where
  ok := h.ok
  node := h.node
  init := h.init
  blocked := h.blocked
  inst := h.inst
  world := h.world
  dirty := by
    intro a b ha hd
    rcases depends_extend hd with hd | ⟨h1, h2, h3⟩
    · exact h.dirty a b ha hd
    · exact ⟨p, h2, hr a ha (by rintro rfl; exact h3 (h1 ▸ rfl)) h1.symm⟩
  nodup := Dirty.nodupMap_extend same h.nodup _ _
  origin := h.origin
  proxy := h.proxy
  sure := h.sure

theorem good_addProxy {S : St} (h : Good N S) {p a : List Str} (h0 : p ≠ []) (hk : render p ∉ keys S.nodes)
    (h1 : Made N (.node p)) (h2 : Made N (.inst p a)) : Good N (addProxy S (render p) (render a)) where
  ok := by
    unfold Ok
    rw [keys_addProxy _ hk, List.nodup_append]
    exact ⟨h.ok, by simp, by
      rintro x hx y hy rfl
      rw [List.mem_singleton.1 hy] at hx
      exact hk hx⟩
  node := by
    intro q hq
    rcases (mem_keys_addProxy S _ _ q).1 hq with rfl | hq
    · exact ⟨p, rfl, h1⟩
    · exact h.node q hq
  init := by
    intro q hq hN
    exact (mem_keys_addProxy S _ _ _).2 (.inr (h.init q hq hN))
  blocked := by
    intro q hq hN
    rw [instOf_addProxy, if_neg]
    · exact h.blocked q hq hN
    · intro he
      have := h.init q hq (by rw [hN]; simp)
      rw [he] at this
      exact hk this
  inst := by
    intro q i b hq hi hb
    rw [instOf_addProxy] at hi
    split at hi
    · rename_i he
      have := render_inj hq h1.names he
      subst this
      cases hi
      rw [pointsTo_abs h2.inst_names.2.1 hb]
      exact h2
    · exact h.inst q i b hq hi hb
  world := by
    intro i hi
    rw [instOf_addProxy, if_neg] at hi
    · exact h.world i hi
    · intro he
      exact h0 (render_inj names_nil h1.names he).symm
  dirty := by rw [dirty_addProxy]; exact h.dirty
  nodup := by rw [dirty_addProxy]; exact h.nodup
  origin := by
    intro q i hq hi
    rw [instOf_addProxy] at hi
    split at hi
    · rename_i he
      rw [render_inj hq h1.names he]
      exact .inr (fun hN => hN.2 _ h2)
    · exact h.origin q i hq hi
  proxy := by
    intro q hq hN hqk
    rw [instOf_addProxy]
    split
    · rename_i he
      rw [render_inj hq h1.names he]
      exact ⟨a, rfl, h2⟩
    · rename_i he
      exact h.proxy q hq hN (((mem_keys_addProxy S _ _ _).1 hqk).resolve_left he)
  sure := by
    intro U q b x rest hq g1 g2
    rw [instOf_addProxy]
    split
    · rename_i he
      have := render_inj g1.inst_names.1 h1.names he
      subst this
      have := U.one q a b h2 g1
      subst this
      exact ⟨_, rfl, pointsTo_render h2.inst_names.2.2 h2.inst_names.2.1⟩
    · rename_i he
      rcases (mem_keys_addProxy S _ _ _).1 hq with hq | hq
      · exact absurd hq he
      · exact h.sure U q b x rest hq g1 g2

/-! ### Discovering -/

/-- What `possible` tells. -/
theorem possible_some {S : St} {p r : Str} (h : possible S p = some r) :
    ∃ i, instOf S p = some i ∧ i ≠ [] ∧ i ≠ WORLD ∧ expandRelative (some i) p = some r ∧
      Py.startsWith p (r ++ [SEP]) = false ∧ r ∉ dirties S.dirty p := by
  unfold possible at h
  split at h
  · cases h
  · rename_i i hi
    split at h
    · cases h
    · rename_i h1
      split at h
      · cases h
      · rename_i h2
        split at h
        · cases h
        · rename_i r' hr
          split at h
          · cases h
          · rename_i h3
            split at h
            · cases h
            · rename_i h4
              cases h
              exact ⟨i, hi, h1, h2, hr, by simpa using h3, h4⟩

theorem possible_of {S : St} {p r i : Str} (h1 : instOf S p = some i) (h2 : i ≠ []) (h3 : i ≠ WORLD)
    (h4 : expandRelative (some i) p = some r) (h5 : Py.startsWith p (r ++ [SEP]) = false)
    (h6 : r ∉ dirties S.dirty p) : possible S p = some r := by
  unfold possible
  rw [h1]
  simp only [if_neg h2, if_neg h3, h4, h5, if_neg h6]
  rfl

/-- The nodes where `possible` gives a path. -/
theorem Good.possible {S : St} (h : Good N S) {p : List Str} {r : Str} (hp : Names p)
    (hr : possible S (render p) = some r) :
    p ≠ [] ∧ r ≠ [] ∧ r ≠ ['/'] ∧ r.head? = some '/' ∧ N p ≠ some (some []) ∧ ¬ NoInst N p ∧
    (∀ a, PointsTo r p a → Made N (.inst p a)) ∧
    (Uniq N → ∀ a x rest, render p ∈ keys S.nodes → Made N (.inst p a) → Made N (.node (a ++ x :: rest)) → PointsTo r p a) := by
  obtain ⟨i, h1, h2, h3, h4, h5, -⟩ := possible_some hr
  have h0 : p ≠ [] := by rintro rfl; exact h2 (h.world i h1)
  have hne : r ≠ [] := by
    rintro rfl
    rw [← Bool.not_eq_true, Py.startsWith_iff] at h5
    have := head_render p
    cases hd : render p with
    | nil => rw [hd] at this; cases this
    | cons c cs =>
      rw [hd] at this h5
      cases this
      exact h5 ⟨cs, rfl⟩
  obtain h6 | h6 := expand_shape hp h0 h2 h3 h4
  · exact absurd h6 hne
  refine ⟨h0, hne, h6.2, h6.1, ?_, (h.origin p i hp h1).resolve_left h2, ?_, ?_⟩
  · intro hN
    rw [h.blocked p hp hN] at h1
    cases h1
    exact h2 rfl
  · intro a ha
    obtain ⟨g1, g2, rfl | ⟨-, g3, -⟩⟩ := ha
    · exact h.inst p i a hp h1 ((pointsTo_iff hp h0 h2).2 ⟨g1, g2, h4⟩)
    · exact absurd h6.1 g3
  · intro U a x rest hk g1 g2
    obtain ⟨i', h1', h7⟩ := h.sure U p a x rest hk g1 g2
    rw [h1] at h1'
    cases h1'
    obtain ⟨k1, k2, k3⟩ := (pointsTo_iff hp h0 h2).1 h7
    rw [h4] at k3
    cases k3
    exact pointsTo_render k1 k2

/-- The target of a child. -/
def tgt (p c : Str) : Str := fromNamespace (toNamespace p ++ [(toNamespace c).getLast?.getD []])

theorem keys_childStep (p : Str) (acc : St × List (Str × Str)) (c : Str) :
    keys (childStep p acc c).1.nodes = keys acc.1.nodes := by
  unfold childStep
  simp only
  split
  · split
    · rfl
    · exact keys_setInst _ _ _
  · rfl

theorem childFold_keys (p : Str) (l : List Str) (acc : St × List (Str × Str)) :
    keys (l.foldl (childStep p) acc).1.nodes = keys acc.1.nodes ∧
    (l.foldl (childStep p) acc).2 =
      acc.2 ++ (l.filter (fun c => tgt p c ∉ keys acc.1.nodes)).map (fun c => (c, tgt p c)) := by
  induction l generalizing acc with
  | nil => simp
  | cons c l ih =>
    rw [List.foldl_cons]
    obtain ⟨h1, h2⟩ := ih (childStep p acc c)
    rw [keys_childStep] at h1 h2
    refine ⟨h1, ?_⟩
    rw [h2]
    unfold childStep
    show (match get? (tgt p c) acc.1.nodes with
      | some n => if n.inst = some [] then acc else (setInst acc.1 (tgt p c) c, acc.2)
      | none => (acc.1, acc.2 ++ [(c, tgt p c)])).2 ++ _ = _
    cases hg : get? (tgt p c) acc.1.nodes with
    | none =>
      have hk := get?_eq_none.1 hg
      rw [List.filter_cons_of_pos (by simpa using hk)]
      simp
    | some n =>
      have hk : tgt p c ∈ keys acc.1.nodes := get?_isSome.1 (by rw [hg]; rfl)
      rw [List.filter_cons_of_neg (by simpa using hk)]
      simp only
      split <;> rfl

theorem childFold_good {p a : List Str} (h0 : p ≠ []) (hi : Made N (.inst p a)) (hn : Made N (.node p))
    (l : List Str) (hl : ∀ c ∈ l, ∃ x rest, c = render (a ++ [x]) ∧ Made N (.node (a ++ x :: rest)))
    (acc : St × List (Str × Str)) (h : Good N acc.1) : Good N (l.foldl (childStep (render p)) acc).1 := by
  induction l generalizing acc with
  | nil => exact h
  | cons c l ih =>
    rw [List.foldl_cons]
    refine ih (fun c hc => hl c (List.mem_cons_of_mem _ hc)) _ ?_
    obtain ⟨x, rest, rfl, hx⟩ := hl c List.mem_cons_self
    have hnx : Names (a ++ [x]) := names_append.2 ⟨hi.inst_names.2.1,
      fun n hn => by rw [List.mem_singleton.1 hn]; exact hx.names _ (by simp)⟩
    have hc := Made.copyNode hi hn hx
    unfold childStep
    rw [target_eq hi.inst_names.1 h0 hnx]
    simp only
    split
    · rename_i n hg
      split
      · exact h
      · rename_i hne
        have hb : N (p ++ [x]) ≠ some (some []) := by
          intro hN
          have := h.blocked _ hc.names hN
          unfold instOf at this
          rw [hg] at this
          exact hne this
        have hm := Made.copyInst hi hn hx hb
        refine good_setInst h hc.names (by simp) hb (fun hN => hN.2 _ hm) (fun _ => ⟨_, rfl, hm⟩) ?_ ?_
        · intro b hb
          rw [pointsTo_abs hnx hb]; exact hm
        · intro U b y more g1 _
          rw [← U.one _ _ _ hm g1]
          exact pointsTo_render (by simp) hnx
    · exact h

/-- What is to be made. -/
def Todo (N : List Str → Option (Option Str)) (K : List Str) (st : Str × Str) : Prop :=
  ∃ p a, p ≠ [] ∧ st.1 = render a ∧ st.2 = render p ∧ Made N (.node p) ∧ Made N (.inst p a) ∧ N p = none ∧ render p ∉ K ∧
    ∃ m x, p = m ++ [x] ∧ render m ∈ K ∧
      ∃ b rest, a = b ++ [x] ∧ Made N (.inst m b) ∧ Made N (.node (b ++ x :: rest))

theorem discover_spec (same : Str → Str → Bool) {kids : List Str → Str → List Str} (hk : GivesKids kids) {S : St}
    (h : Good N S) {q : Str} (hq : q ∈ keys S.nodes) :
    Good N (discover same kids S q).1 ∧ keys (discover same kids S q).1.nodes = keys S.nodes ∧
    ∀ st ∈ (discover same kids S q).2, Todo N (keys S.nodes) st := by
  obtain ⟨p, rfl, hp⟩ := h.node q hq
  unfold discover
  split
  · exact ⟨h, rfl, fun st hst => nomatch hst⟩
  · rename_i r hr
    obtain ⟨h0, h1, h2, h3, h4, ho, h5, h6⟩ := h.possible hp.names hr
    have hx : N p = none → ∃ a, r = render a ∧ Made N (.inst p a) := by
      intro hN
      obtain ⟨a, ha, hm⟩ := h.proxy p hp.names hN hq
      obtain ⟨i, k1, -, -, k4, -⟩ := possible_some hr
      rw [ha] at k1
      cases k1
      rw [expand_render] at k4
      exact ⟨a, (Option.some.inj k4).symm, hm⟩
    have e1 : Good N (setInst S (render p) r) :=
      good_setInst h hp.names h0 h4 ho hx h5 (fun U a x rest => h6 U a x rest hq)
    have e2 := good_extend (p := p) (r := r) e1 same (fun a ha g0 hra => by
      refine h5 a ?_
      rw [hra]
      exact pointsTo_render g0 ha)
    have e3 : ∃ T : St, Good N T ∧ keys T.nodes = keys S.nodes ∧ T =
        (let S := setInst S (render p) r
         let S : St := { S with dirty := Dirty.extend same S.dirty r (render p) }
         if r ∈ keys S.nodes then setOrder S (render p) (Lists.listMerger (orderOf S (render p)) (orderOf S r)) else S) := by
      refine ⟨_, ?_, ?_, rfl⟩
      · simp only
        split
        · exact good_setOrder e2 _ _
        · exact e2
      · simp only
        split
        · rw [keys_setOrder]; exact keys_setInst _ _ _
        · exact keys_setInst _ _ _
    obtain ⟨T, g1, g2, g3⟩ := e3
    simp only at g3 ⊢
    rw [← g3]
    have hkid : ∀ c ∈ kids (keys T.nodes) r, ∃ a, r = render a ∧ Made N (.inst p a) ∧ ∃ x rest, c = render (a ++ [x]) ∧
        Names (a ++ [x]) ∧ Made N (.node (a ++ x :: rest)) := by
      intro c hc
      obtain ⟨a, x, rest, k1, k2, k3, k4⟩ := (hk _ g1.paths r h1 h2 c).1 hc
      have ha : Names a := (names_append.1 k1).1
      have ha0 : a ≠ [] := by rintro rfl; exact h2 k2
      obtain ⟨b, k5, k6⟩ := g1.node _ k4
      rw [← render_inj k1 k6.names k5] at k6
      refine ⟨a, k2, h5 a (k2 ▸ pointsTo_render ha0 ha), x, rest, k3, ?_, k6⟩
      exact names_append.2 ⟨ha, fun n hn => by rw [List.mem_singleton.1 hn]; exact k1 _ (by simp)⟩
    obtain ⟨f1, f2⟩ := childFold_keys (render p) (kids (keys T.nodes) r) (T, [])
    refine ⟨?_, by rw [f1]; exact g2, ?_⟩
    · cases hkl : kids (keys T.nodes) r with
      | nil => exact g1
      | cons c l =>
        obtain ⟨a, k1, k2, -⟩ := hkid c (by rw [hkl]; exact List.mem_cons_self)
        refine childFold_good h0 k2 hp _ ?_ (T, []) g1
        intro c' hc'
        obtain ⟨a', k1', k2', x, rest, k3, k4, k5⟩ := hkid c' (by rw [hkl]; exact hc')
        have := render_inj k2'.inst_names.2.1 k2.inst_names.2.1 (k1' ▸ k1)
        subst this
        exact ⟨x, rest, k3, k5⟩
    · intro st hst
      rw [f2, List.nil_append, List.mem_map] at hst
      obtain ⟨c, hc, rfl⟩ := hst
      rw [List.mem_filter] at hc
      obtain ⟨a, k1, k2, x, rest, rfl, k4, k5⟩ := hkid c hc.1
      have ht : tgt (render p) (render (a ++ [x])) = render (p ++ [x]) := target_eq hp.names h0 k4
      have hnk : render (p ++ [x]) ∉ keys S.nodes := by
        rw [← ht, ← g2]; simpa using hc.2
      have hc' := Made.copyNode k2 hp k5
      refine ⟨p ++ [x], a ++ [x], by simp, rfl, ht, hc', Made.copyInst k2 hp k5 ?_, ?_, hnk, p, x, rfl, hq, a, rest, rfl, k2, k5⟩
      · intro hN
        exact hnk (h.init _ hc'.names (by rw [hN]; simp))
      · exact Classical.byContradiction (fun hN => hnk (h.init _ hc'.names hN))

/-- When nothing is found for a node, everything below its source is there. -/
theorem discover_closed (same : Str → Str → Bool) {kids : List Str → Str → List Str} (hk : GivesKids kids) {S : St}
    (h : Good N S) {p a rest : List Str} {x : Str} (hp : Names p) (hq : render p ∈ keys S.nodes)
    (ha : Names (a ++ x :: rest))
    (hr : possible S (render p) = some (render a)) (hn : (discover same kids S (render p)).2 = [])
    (hx : render (a ++ x :: rest) ∈ keys S.nodes) : render (p ++ [x]) ∈ keys S.nodes := by
  obtain ⟨h0, h1, h2, -⟩ := h.possible hp hr
  unfold discover at hn
  rw [hr] at hn
  simp only at hn
  have e3 : ∃ T : St, keys T.nodes = keys S.nodes ∧ T =
      (if render a ∈ keys (setInst S (render p) (render a)).nodes then
        setOrder { setInst S (render p) (render a) with
            dirty := Dirty.extend same (setInst S (render p) (render a)).dirty (render a) (render p) } (render p)
          (Lists.listMerger (orderOf { setInst S (render p) (render a) with
            dirty := Dirty.extend same (setInst S (render p) (render a)).dirty (render a) (render p) } (render p))
            (orderOf { setInst S (render p) (render a) with
            dirty := Dirty.extend same (setInst S (render p) (render a)).dirty (render a) (render p) } (render a)))
        else { setInst S (render p) (render a) with
            dirty := Dirty.extend same (setInst S (render p) (render a)).dirty (render a) (render p) }) := by
    refine ⟨_, ?_, rfl⟩
    split
    · rw [keys_setOrder]; exact keys_setInst _ _ _
    · exact keys_setInst _ _ _
  obtain ⟨T, g2, g3⟩ := e3
  rw [← g3, (childFold_keys _ _ _).2, List.nil_append, List.map_eq_nil_iff, List.filter_eq_nil_iff] at hn
  have hax : Names (a ++ [x]) := names_append.2 ⟨(names_append.1 ha).1,
    fun n hn => by rw [List.mem_singleton.1 hn]; exact ha _ (by simp)⟩
  have hc : render (a ++ [x]) ∈ kids (keys T.nodes) (render a) := by
    refine (hk _ (by rw [g2]; exact h.paths) _ h1 h2 _).2 ⟨a, x, rest, ha, rfl, rfl, by rw [g2]; exact hx⟩
  have := hn _ hc
  rw [show tgt (render p) (render (a ++ [x])) = render (p ++ [x]) from target_eq hp h0 hax] at this
  rw [← g2]
  simpa using this

/-! ### Creating -/

theorem keys_standIn (S : St) (src : Str) : keys (standIn S src).nodes = keys S.nodes := by
  unfold standIn
  split
  · rfl
  · split
    · rfl
    · split
      · rfl
      · exact keys_setOrder _ _ _

theorem instOf_standIn (S : St) (src q : Str) : instOf (standIn S src) q = instOf S q := by
  unfold standIn
  split
  · rfl
  · split
    · rfl
    · split
      · rfl
      · exact instOf_setOrder _ _ _ _

theorem good_standIn {S : St} (h : Good N S) (src : Str) : Good N (standIn S src) := by
  unfold standIn
  split
  · exact h
  · split
    · exact h
    · split
      · exact h
      · exact good_setOrder h _ _

theorem create_good (same : Str → Str → Bool) {acc : St × List Str} (h : Good N acc.1) {K : List Str}
    {st : Str × Str} (ht : Todo N K st) :
    Good N (create same acc st).1 ∧ (∀ q, q ∈ keys (create same acc st).1.nodes ↔ q = st.2 ∨ q ∈ keys acc.1.nodes) ∧
    ∀ q ∈ (create same acc st).2, q ∈ acc.2 ∨ q = st.2 := by
  obtain ⟨p, a, h0, h1, h2, h3, h4, h5, -⟩ := ht
  unfold create
  simp only
  have hkk := keys_standIn acc.1 st.1
  have h := good_standIn h st.1
  generalize standIn acc.1 st.1 = S0 at h hkk ⊢
  rw [← hkk]
  have e : Good N (if st.2 ∈ keys S0.nodes then setInst S0 st.2 st.1 else addProxy S0 st.2 st.1) := by
    rw [h1, h2]
    split
    · rename_i hk
      refine good_setInst h h3.names h0 (by rw [h5]; simp) (fun hN => hN.2 _ h4) (fun _ => ⟨_, rfl, h4⟩)
        (fun b hb => ?_) (fun U b y more g1 _ => ?_)
      · rw [pointsTo_abs h4.inst_names.2.1 hb]; exact h4
      · rw [← U.one _ _ _ h4 g1]
        exact pointsTo_render h4.inst_names.2.2 h4.inst_names.2.1
    · rename_i hk
      exact good_addProxy h h0 hk h3 h4
  refine ⟨?_, ?_, ?_⟩
  · rw [h1, h2] at e ⊢
    refine good_extend (p := p) (r := render a) e same (fun b hb _ hab => ?_)
    rw [← render_inj h4.inst_names.2.1 hb hab]
    exact h4
  · intro q
    split
    · rename_i hk
      rw [keys_setInst]
      constructor
      · exact .inr
      · rintro (rfl | hq)
        · exact hk
        · exact hq
    · exact mem_keys_addProxy _ _ _ _
  · intro q hq
    split at hq
    · rcases List.mem_append.1 hq with hq | hq
      · exact .inl hq
      · exact .inr (List.mem_singleton.1 hq)
    · exact .inl hq

end Nxt.Proxies
