import Verif.Lemmas.ProxySep
/-!
# The instance paths of separate instances after the loop
-/
namespace Nxt.Proxies
open Dict Spec Path

variable {N : List Str → Option (Option Str)}

theorem instOf_childFold (p : Str) (q : Str) (l : List Str) (hl : ∀ c ∈ l, tgt p c ≠ q) : ∀ acc : St × List (Str × Str),
    instOf (l.foldl (childStep p) acc).1 q = instOf acc.1 q := by
  induction l with
  | nil => intro acc; rfl
  | cons c l ih =>
    intro acc
    rw [List.foldl_cons, ih (fun c hc => hl c (List.mem_cons_of_mem _ hc))]
    have hne := hl c List.mem_cons_self
    unfold tgt at hne
    unfold childStep
    simp only
    split
    · split
      · rfl
      · rw [instOf_setInst, if_neg (fun hh => hne hh.1.symm)]
    · rfl

/-- Discovering sets the instance path of the node itself and of nodes which are made. -/
theorem instOf_discover (same : Str → Str → Bool) {kids : List Str → Str → List Str} (hk : GivesKids kids) {S : St}
    (h : Good N S) (C : Separate N) {p q : List Str} (hp : Made N (.node p)) (hpk : render p ∈ keys S.nodes) (hq : Names q)
    (hN : ∃ i, N q = some (some i)) : instOf (discover same kids S (render p)).1 (render q) =
      if q = p then (possible S (render p)).or (instOf S (render q)) else instOf S (render q) := by
  unfold discover
  cases hr : possible S (render p) with
  | none => simp
  | some r =>
    obtain ⟨h0, h1, h2, h3, h4, ho, h5, h6⟩ := h.possible hp.names hr
    have e3 : ∃ T : St, keys T.nodes = keys S.nodes ∧ instOf T (render q) = (if q = p then some r else instOf S (render q)) ∧ T =
        (let S := setInst S (render p) r
         let S : St := { S with dirty := Dirty.extend same S.dirty r (render p) }
         if r ∈ keys S.nodes then setOrder S (render p) (Lists.listMerger (orderOf S (render p)) (orderOf S r)) else S) := by
      have e : instOf (setInst S (render p) r) (render q) = (if q = p then some r else instOf S (render q)) := by
        rw [instOf_setInst]
        by_cases hqp : q = p
        · rw [if_pos hqp, if_pos ⟨by rw [hqp], hpk⟩]
        · rw [if_neg hqp, if_neg (fun hh => hqp (render_inj hq hp.names hh.1))]
      refine ⟨_, ?_, ?_, rfl⟩
      · simp only
        split
        · rw [keys_setOrder]; exact keys_setInst _ _ _
        · exact keys_setInst _ _ _
      · simp only
        split
        · rw [instOf_setOrder]; exact e
        · exact e
    obtain ⟨T, g1, g2, g3⟩ := e3
    simp only at g3 ⊢
    rw [← g3, instOf_childFold]
    · rw [g2]; rfl
    · intro c hc
      obtain ⟨a, x, rest, k1, k2, rfl, k4⟩ := (hk _ (by rw [g1]; exact h.paths) r h1 h2 c).1 hc
      have ha : Names a := (names_append.1 k1).1
      have ha0 : a ≠ [] := by rintro rfl; exact h2 k2
      rw [g1] at k4
      have hax : Names (a ++ [x]) := names_append.2 ⟨ha, fun n hn => by rw [List.mem_singleton.1 hn]; exact k1 _ (by simp)⟩
      rw [show tgt (render p) (render (a ++ [x])) = render (p ++ [x]) from target_eq hp.names h0 hax]
      have hpx : Names (p ++ [x]) := names_append.2 ⟨hp.names, (names_append.1 hax).2⟩
      intro he
      have he := render_inj hpx hq he
      subst he
      obtain ⟨q', r', t, ht, rfl, -, hi⟩ := Props.sep_made C (h5 a (k2 ▸ pointsTo_render ha0 ha))
      obtain ⟨i, hN⟩ := hN
      rw [List.append_assoc] at hN hpx
      cases (C.own q' r' _ _ hi (by simp) (names_append.1 hpx).2 hN).1

/-- Every instance of the start still points to its source. -/
def Held (N : List Str → Option (Option Str)) (S : St) : Prop :=
  ∀ q r, InstOf N q r → ∃ i, instOf S (render q) = some i ∧ PointsTo i q r

theorem _root_.Nxt.Spec.InstOf.there {q r : List Str} (h : InstOf N q r) : N q ≠ none := by
  obtain ⟨-, i, h, -⟩ := h
  rw [h]; simp

theorem _root_.Nxt.Spec.InstOf.path {q r : List Str} (h : InstOf N q r) : ∃ i, N q = some (some i) := by
  obtain ⟨-, i, h, -⟩ := h
  exact ⟨i, h⟩

theorem held_start {S : St} : Held (nodesOf S) S := by
  rintro q r ⟨hq, i, hi, hr⟩
  refine ⟨i, ?_, hr⟩
  unfold nodesOf at hi
  unfold instOf
  cases hg : get? (render q) S.nodes with
  | none => rw [hg] at hi; cases hi
  | some n => rw [hg] at hi; exact Option.some.inj hi

/-- What an instance which follows points to is possible at any time. -/
theorem sep_possible {S : St} (h : Good N S) (C : Separate N) (hw : ∀ i, N [] = some (some i) → i = [])
    {q r : List Str} {i : Str} (hm : Made N (.inst q r)) (h1 : instOf S (render q) = some i) (hp : PointsTo i q r) :
    possible S (render q) = some (render r) := by
  obtain ⟨n1, n2, n3⟩ := hm.inst_names
  have h0 : q ≠ [] := by rintro rfl; exact hm.ne_world hw r rfl
  have hine : i ≠ [] := by
    rintro rfl
    exact Props.not_pointsTo_nil hp
  have hiw : i ≠ WORLD := by
    rintro rfl
    obtain ⟨-, -, he | ⟨-, he, -⟩⟩ := hp
    · exact n3 ((render_eq_world n2).1 he.symm)
    · exact he rfl
  obtain ⟨q0, r0, t, -, e1, e2, hi⟩ := Props.sep_made C hm
  obtain ⟨hap1, hap2⟩ := C.apart q0 r0 q0 r0 hi hi
  refine possible_of h1 hine hiw ((pointsTo_iff n1 h0 hine).1 hp).2.2 ?_ ?_
  · rw [← Bool.not_eq_true, Py.startsWith_iff]
    rintro ⟨u, hu⟩
    rw [render_ne_nil h0, render_ne_nil n3, show slashed r ++ [SEP] ++ u = slashed r ++ '/' :: u by simp [SEP]] at hu
    obtain ⟨more, -, he⟩ := (prefix_slashed_iff n2 n1).1 ⟨u, hu⟩
    rw [e1, e2, List.append_assoc] at he
    rcases Props.comparable he with h | h
    · exact hap1 h
    · exact hap2 h
  · rw [mem_dirties h.nodup]
    intro hr
    obtain ⟨s, -, -, hf⟩ := h.feeds n1 hr
    have none : ∀ z, ¬ Made N (.inst z q) := by
      intro z hz
      obtain ⟨q', r', t', -, -, e, hi'⟩ := Props.sep_made C hz
      obtain ⟨k1, k2⟩ := C.apart q' r' q0 r0 hi' hi
      rw [e1] at e
      rcases Props.comparable e with h | h
      · exact k1 h
      · exact k2 h
    have : ∀ z, ¬ Feeds N q z := by
      intro z hz
      induction hz with
      | one h => exact none _ h
      | more _ _ ih => exact ih
    exact this _ hf

theorem held_possible {S : St} (h : Good N S) (C : Separate N) (hw : ∀ i, N [] = some (some i) → i = []) (hh : Held N S)
    {q r : List Str} (hi : InstOf N q r) : possible S (render q) = some (render r) := by
  obtain ⟨i, h1, hp⟩ := hh q r hi
  obtain ⟨g1, j, g2, g3⟩ := hi
  exact sep_possible h C hw (.inst g1 g2 g3) h1 hp

theorem held_congr {S T : St} (hh : Held N S) (h : ∀ q, Names q → N q ≠ none → instOf T (render q) = instOf S (render q)) : Held N T := by
  intro q r hi
  rw [h q hi.1 hi.there]
  exact hh q r hi

theorem held_discover (same : Str → Str → Bool) {kids : List Str → Str → List Str} (hk : GivesKids kids) {S : St}
    (h : Good N S) (C : Separate N) (hw : ∀ i, N [] = some (some i) → i = []) (hh : Held N S) {p : List Str} (hp : Made N (.node p))
    (hpk : render p ∈ keys S.nodes) : Held N (discover same kids S (render p)).1 ∧
      (∀ r, InstOf N p r → instOf (discover same kids S (render p)).1 (render p) = some (render r)) ∧
      ∀ q r, InstOf N q r → instOf S (render q) = some (render r) →
        instOf (discover same kids S (render p)).1 (render q) = some (render r) := by
  have key : ∀ r, InstOf N p r → instOf (discover same kids S (render p)).1 (render p) = some (render r) := by
    intro r hi
    rw [instOf_discover same hk h C hp hpk hi.1 hi.path, if_pos rfl, held_possible h C hw hh hi]
    rfl
  refine ⟨fun q r hi => ?_, key, fun q r hi hs => ?_⟩
  · by_cases hqp : q = p
    · subst hqp
      obtain ⟨-, i, -, hr⟩ := id hi
      exact ⟨render r, key r hi, pointsTo_render hr.1 hr.2.1⟩
    · rw [instOf_discover same hk h C hp hpk hi.1 hi.path, if_neg hqp]
      exact hh q r hi
  · by_cases hqp : q = p
    · subst hqp; exact key r hi
    · rw [instOf_discover same hk h C hp hpk hi.1 hi.path, if_neg hqp]
      exact hs

theorem held_discoverAll (same : Str → Str → Bool) {kids : List Str → Str → List Str} (hk : GivesKids kids) {S : St}
    (h : Good N S) (C : Separate N) (hw : ∀ i, N [] = some (some i) → i = []) (hh : Held N S) :
    Held N (discoverAll same kids S).1 ∧
      ∀ q r, InstOf N q r → instOf (discoverAll same kids S).1 (render q) = some (render r) := by
  have key : ∀ (l : List Str) (acc : St × List (Str × Str)), (∀ q ∈ l, q ∈ keys S.nodes) → Good N acc.1 →
      keys acc.1.nodes = keys S.nodes → Held N acc.1 →
      let R := l.foldl (fun acc p => ((discover same kids acc.1 p).1, acc.2 ++ (discover same kids acc.1 p).2)) acc
      Held N R.1 ∧ ∀ q r, InstOf N q r → (render q ∈ l ∨ instOf acc.1 (render q) = some (render r)) →
        instOf R.1 (render q) = some (render r) := by
    intro l
    induction l with
    | nil =>
      intro acc _ _ _ hh
      refine ⟨hh, fun q r _ ho => ?_⟩
      rcases ho with ho | ho
      · cases ho
      · exact ho
    | cons p l ih =>
      intro acc hl h1 h2 hh
      have hp : p ∈ keys acc.1.nodes := by rw [h2]; exact hl p List.mem_cons_self
      obtain ⟨d1, d2, -⟩ := discover_spec same hk h1 hp
      obtain ⟨p', rfl, hm⟩ := h1.node p hp
      obtain ⟨e1, e2, e3⟩ := held_discover same hk h1 C hw hh hm hp
      obtain ⟨r1, r2⟩ := ih ((discover same kids acc.1 (render p')).1, acc.2 ++ (discover same kids acc.1 (render p')).2)
        (fun q hq => hl q (List.mem_cons_of_mem _ hq)) d1 (d2.trans h2) e1
      refine ⟨r1, fun q r hi ho => r2 q r hi ?_⟩
      rcases ho with ho | ho
      · rcases List.mem_cons.1 ho with ho | ho
        · have he := render_inj hi.1 hm.names ho
          subst he
          exact .inr (e2 r hi)
        · exact .inl ho
      · exact .inr (e3 q r hi ho)
  obtain ⟨r1, r2⟩ := key (deepSort S) (S, []) (fun q hq => (mem_deepSort h.ok q).1 hq) h rfl hh
  exact ⟨r1, fun q r hi => r2 q r hi (.inl ((mem_deepSort h.ok _).2 (h.init q hi.1 hi.there)))⟩

/-- Creating leaves the instance paths of the nodes of the start. -/
theorem instOf_create (same : Str → Str → Bool) {acc : St × List Str} {K : List Str} {st : Str × Str} (ht : Todo N K st)
    {q : List Str} (hq : Names q) (hN : N q ≠ none) : instOf (create same acc st).1 (render q) = instOf acc.1 (render q) := by
  obtain ⟨p, a, h0, h1, h2, h3, h4, h5, -⟩ := ht
  have hne : render q ≠ st.2 := by
    rw [h2]
    intro he
    rw [render_inj hq h3.names he] at hN
    exact hN h5
  unfold create
  simp only
  rw [← instOf_standIn acc.1 st.1 (render q)]
  generalize standIn acc.1 st.1 = S0
  split
  · show instOf (setInst S0 st.2 st.1) (render q) = _
    rw [instOf_setInst, if_neg (fun hh => hne hh.1)]
  · show instOf (addProxy S0 st.2 st.1) (render q) = _
    rw [instOf_addProxy, if_neg hne]

theorem held_create (same : Str → Str → Bool) {acc : St × List Str} (hh : Held N acc.1) {K : List Str}
    {st : Str × Str} (ht : Todo N K st) : Held N (create same acc st).1 :=
  held_congr hh (fun _ hq hN => instOf_create same ht hq hN)

theorem held_createFold (same : Str → Str → Bool) {K : List Str} (l : List (Str × Str)) (hl : ∀ st ∈ l, Todo N K st) :
    ∀ acc : St × List Str, Held N acc.1 → Held N (l.foldl (create same) acc).1 := by
  induction l with
  | nil => intro acc h; exact h
  | cons st l ih =>
    intro acc h
    rw [List.foldl_cons]
    exact ih (fun s hs => hl s (List.mem_cons_of_mem _ hs)) _ (held_create same h (hl st List.mem_cons_self))

theorem held_proxyLoop (same : Str → Str → Bool) {kids : List Str → Str → List Str} (hk : GivesKids kids) (C : Separate N)
    (hw : ∀ i, N [] = some (some i) → i = []) : ∀ fuel (acc : St × List Str) T imp, Good N acc.1 → ImpOk N acc → Held N acc.1 →
    proxyLoop same kids fuel acc = some (T, imp) → ∀ q r, InstOf N q r → instOf T (render q) = some (render r) := by
  intro fuel
  induction fuel with
  | zero => intro acc T imp _ _ _ h; cases h
  | succ fuel ih =>
    intro acc T imp hg hi hh h
    rw [proxyLoop] at h
    obtain ⟨d1, d2, d3, -⟩ := discoverAll_spec same hk hg
    obtain ⟨e1, e2⟩ := held_discoverAll same hk hg C hw hh
    have hi' : ImpOk N ((discoverAll same kids acc.1).1, acc.2) := by
      refine ⟨fun q hq => ?_, hi.new, fun U p a x rest => ?_⟩
      · rw [d2]; exact hi.there q hq
      · rw [d2]; exact hi.plain U p a x rest
    split at h
    · cases h; exact e2
    · obtain ⟨c1, c2, -⟩ := createFold_spec same _ d3 ((discoverAll same kids acc.1).1, acc.2) d1 hi'
        (fun q hq => by rw [d2]; exact hq)
      exact ih _ _ _ c1 c2 (held_createFold same _ d3 _ e1) h

/-! ### Nodes below an instance which were there -/

/-- `c` is a node below an instance without an instance path, and stands for the node `s` below the source. -/
structure Overlaid (N : List Str → Option (Option Str)) (c s : List Str) : Prop where
  names : Names c
  bare : N c = some none
  there : N s ≠ none
  from_ : ∃ q r t, t ≠ [] ∧ c = q ++ t ∧ s = r ++ t ∧ InstOf N q r

/-- No node without an instance path has got an empty one. -/
def Clear (N : List Str → Option (Option Str)) (S : St) : Prop :=
  ∀ c, Names c → N c = some none → instOf S (render c) ≠ some []

theorem clear_start {S : St} : Clear (nodesOf S) S := by
  intro c _ hN h
  unfold nodesOf at hN
  unfold instOf at h
  cases hg : get? (render c) S.nodes with
  | none => rw [hg] at hN; cases hN
  | some n =>
    rw [hg] at hN h
    have hN : n.inst = none := Option.some.inj hN
    have h : n.inst = some [] := h
    rw [hN] at h
    cases h

theorem instOf_childFold_clear (p q : Str) (l : List Str) (hl : ∀ c ∈ l, c ≠ []) : ∀ acc : St × List (Str × Str),
    instOf acc.1 q ≠ some [] → instOf (l.foldl (childStep p) acc).1 q ≠ some [] := by
  induction l with
  | nil => intro acc h; exact h
  | cons c l ih =>
    intro acc h
    rw [List.foldl_cons]
    refine ih (fun c hc => hl c (List.mem_cons_of_mem _ hc)) _ ?_
    unfold childStep
    simp only
    split
    · split
      · exact h
      · rw [instOf_setInst]
        split
        · intro he
          exact hl c List.mem_cons_self (Option.some.inj he)
        · exact h
    · exact h

theorem instOf_childFold_set (p q s : Str) (hs : s ≠ []) (l : List Str) (hl : ∀ c ∈ l, tgt p c = q → c = s) :
    ∀ acc : St × List (Str × Str), q ∈ keys acc.1.nodes → instOf acc.1 q ≠ some [] →
      ((∃ c ∈ l, tgt p c = q) ∨ instOf acc.1 q = some s) → instOf (l.foldl (childStep p) acc).1 q = some s := by
  induction l with
  | nil =>
    intro acc _ _ h
    rcases h with ⟨c, hc, -⟩ | h
    · cases hc
    · exact h
  | cons c l ih =>
    intro acc hq hb h
    rw [List.foldl_cons]
    have hl' : ∀ c ∈ l, tgt p c = q → c = s := fun c hc => hl c (List.mem_cons_of_mem _ hc)
    by_cases ht : tgt p c = q
    · have hcs := hl c List.mem_cons_self ht
      subst hcs
      obtain ⟨n, hn⟩ := Option.isSome_iff_exists.1 (get?_isSome.2 hq)
      have hni : n.inst ≠ some [] := by
        unfold instOf at hb
        rw [hn] at hb
        exact hb
      have e : childStep p acc c = (setInst acc.1 q c, acc.2) := by
        unfold tgt at ht
        unfold childStep
        simp only [ht, hn, if_neg hni]
      rw [e]
      have e2 : instOf (setInst acc.1 q c) q = some c := by rw [instOf_setInst, if_pos ⟨rfl, hq⟩]
      refine ih hl' _ (by rw [keys_setInst]; exact hq) (by rw [e2]; simpa using hs) (.inr e2)
    · have e : instOf (childStep p acc c).1 q = instOf acc.1 q ∧ keys (childStep p acc c).1.nodes = keys acc.1.nodes := by
        unfold tgt at ht
        unfold childStep
        simp only
        split
        · split
          · exact ⟨rfl, rfl⟩
          · exact ⟨by rw [instOf_setInst, if_neg (fun hh => ht hh.1.symm)], keys_setInst _ _ _⟩
        · exact ⟨rfl, rfl⟩
      refine ih hl' _ (by rw [e.2]; exact hq) (by rw [e.1]; exact hb) ?_
      rw [e.1]
      rcases h with ⟨d, hd, hd2⟩ | h
      · rcases List.mem_cons.1 hd with rfl | hd
        · exact absurd hd2 ht
        · exact .inl ⟨d, hd, hd2⟩
      · exact .inr h

/-- The state `discover` has before it goes through the children. -/
theorem discover_begun (same : Str → Str → Bool) (kids : List Str → Str → List Str) (S : St) (p r : Str)
    (hr : possible S p = some r) : ∃ T : St, keys T.nodes = keys S.nodes ∧
      (∀ q, instOf T q = if q = p ∧ p ∈ keys S.nodes then some r else instOf S q) ∧
      discover same kids S p = (kids (keys S.nodes) r).foldl (childStep p) (T, []) := by
  refine ⟨(let S := setInst S p r
         let S : St := { S with dirty := Dirty.extend same S.dirty r p }
         if r ∈ keys S.nodes then setOrder S p (Lists.listMerger (orderOf S p) (orderOf S r)) else S), ?_, fun q => ?_, ?_⟩
  · simp only
    split
    · rw [keys_setOrder]; exact keys_setInst _ _ _
    · exact keys_setInst _ _ _
  · simp only
    split
    · rw [instOf_setOrder]; exact instOf_setInst _ _ _ _
    · exact instOf_setInst _ _ _ _
  · unfold discover
    rw [hr]
    simp only
    congr 2
    split
    · rw [keys_setOrder]; exact keys_setInst _ _ _
    · exact keys_setInst _ _ _

theorem clear_discover (same : Str → Str → Bool) {kids : List Str → Str → List Str} (hk : GivesKids kids) {S : St}
    (h : Good N S) (hc : Clear N S) {p : List Str} (hp : Made N (.node p)) : Clear N (discover same kids S (render p)).1 := by
  intro c hN hb
  cases hr : possible S (render p) with
  | none =>
    unfold discover
    rw [hr]
    exact hc c hN hb
  | some r =>
    obtain ⟨-, h1, h2, -⟩ := h.possible hp.names hr
    obtain ⟨T, -, e2, e3⟩ := discover_begun same kids S (render p) r hr
    rw [e3]
    refine instOf_childFold_clear _ _ _ (fun k hkm => ?_) _ ?_
    · obtain ⟨a, x, rest, -, -, rfl, -⟩ := (hk _ h.paths r h1 h2 k).1 hkm
      intro he
      have := head_render (a ++ [x])
      rw [he] at this
      cases this
    · rw [e2]
      split
      · simpa using h1
      · exact hc c hN hb

/-- Discovering a node sets the instance paths of the nodes there are below it, and keeps those which are set. -/
theorem overlaid_discover (same : Str → Str → Bool) {kids : List Str → Str → List Str} (hk : GivesKids kids) {S : St}
    (h : Good N S) (C : Separate N) (hw : ∀ i, N [] = some (some i) → i = []) (hcl : Clear N S) {p : List Str} (hp : Made N (.node p))
    (hpk : render p ∈ keys S.nodes) {c s : List Str} (o : Overlaid N c s)
    (ho : (∃ x, c = p ++ [x]) ∨ instOf S (render c) = some (render s)) :
    instOf (discover same kids S (render p)).1 (render c) = some (render s) := by
  obtain ⟨q, r, t, ht, e1, e2, hi⟩ := o.from_
  have hrN : Names r := by obtain ⟨-, i, -, hr⟩ := hi; exact hr.2.1
  have htN : Names t := by have := o.names; rw [e1] at this; exact (names_append.1 this).2
  have hsN : Names s := by rw [e2]; exact names_append.2 ⟨hrN, htN⟩
  have calm := Props.Separate.calm C
  -- what `p` is when it is above `c`
  have hpar : ∀ x, c = p ++ [x] → ∃ a, s = a ++ [x] ∧ Made N (.inst p a) ∧ Made N (.node (a ++ [x])) := by
    rintro x rfl
    rcases eq_nil_or_snoc t with rfl | ⟨u, y, rfl⟩
    · exact absurd rfl ht
    · rw [← List.append_assoc] at e1
      obtain ⟨rfl, e⟩ := List.append_inj' e1 rfl
      cases e
      refine ⟨r ++ u, by rw [e2, List.append_assoc], ?_, ?_⟩
      · exact (Props.sep_copies C hi u [x] (by rw [List.append_assoc, ← e2]; exact hsN) (by rw [List.append_assoc, ← e2]; exact o.there)).2
      · obtain ⟨j, hj⟩ := Option.ne_none_iff_exists'.1 o.there
        have := Made.node hsN hj
        rw [e2, ← List.append_assoc] at this
        exact this
  have hsne : render s ≠ [] := by
    intro he
    have := head_render s
    rw [he] at this
    cases this
  cases hr : possible S (render p) with
  | none =>
    rcases ho with ⟨x, hx⟩ | ho
    · obtain ⟨a, -, h2, h3⟩ := hpar x hx
      obtain ⟨i, h4, h5⟩ := h.sure calm.toUniq p a x [] hpk h2 h3
      rw [sep_possible h C hw h2 h4 h5] at hr
      cases hr
    · unfold discover
      rw [hr]
      exact ho
  | some r' =>
    obtain ⟨h0, h1, h2, h3, -, -, h5, h6⟩ := h.possible hp.names hr
    obtain ⟨T, k1, k2, k3⟩ := discover_begun same kids S (render p) r' hr
    rw [k3]
    have hcb := hcl c o.names o.bare
    refine instOf_childFold_set _ _ _ hsne _ (fun k hkm he => ?_) _ ?_ ?_ ?_
    · obtain ⟨a, x, rest, g1, rfl, rfl, -⟩ := (hk _ h.paths r' h1 h2 k).1 hkm
      have ha : Names a := (names_append.1 g1).1
      have ha0 : a ≠ [] := by rintro rfl; exact h2 rfl
      have hax : Names (a ++ [x]) := names_append.2 ⟨ha, fun n hn => by rw [List.mem_singleton.1 hn]; exact g1 _ (by simp)⟩
      rw [show tgt (render p) (render (a ++ [x])) = render (p ++ [x]) from target_eq hp.names h0 hax] at he
      have hpx : Names (p ++ [x]) := names_append.2 ⟨hp.names, (names_append.1 hax).2⟩
      obtain ⟨a', e, g2, -⟩ := hpar x (render_inj hpx o.names he).symm
      rw [e, calm.one _ _ _ g2 (h5 a (pointsTo_render ha0 ha))]
    · rw [k1]
      exact h.init c o.names (by rw [o.bare]; simp)
    · rw [k2]
      split
      · simpa using h1
      · exact hcb
    · rcases ho with ⟨x, hx⟩ | ho
      · left
        obtain ⟨a, e, g2, g3⟩ := hpar x hx
        obtain ⟨a1, a2, a3⟩ := h6 calm.toUniq a x [] hpk g2 g3
        have hra : r' = render a := by
          rcases a3 with a3 | ⟨-, a3, -⟩
          · exact a3
          · exact absurd h3 a3
        have hax : Names (a ++ [x]) := by rw [← e]; exact hsN
        refine ⟨render s, (hk _ h.paths r' h1 h2 _).2 ⟨a, x, [], hax, hra, by rw [e], ?_⟩, ?_⟩
        · rw [← e]
          exact h.init s hsN o.there
        · rw [e, hx]
          exact target_eq hp.names h0 hax
      · by_cases hcp : c = p
        · subst hcp
          right
          rw [k2, if_pos ⟨rfl, hpk⟩]
          have hm : Made N (.inst c s) := by
            rw [e1, e2]
            exact (Props.sep_copies C hi t [] (by rw [List.append_nil, ← e2]; exact hsN) (by rw [List.append_nil, ← e2]; exact o.there)).2
          have := sep_possible h C hw hm ho (pointsTo_render hm.inst_names.2.2 hsN)
          rw [← hr, this]
        · right
          rw [k2, if_neg (fun hh => hcp (render_inj o.names hp.names hh.1))]
          exact ho

theorem overlaid_discoverAll (same : Str → Str → Bool) {kids : List Str → Str → List Str} (hk : GivesKids kids) {S : St}
    (h : Good N S) (C : Separate N) (hw : ∀ i, N [] = some (some i) → i = []) (hcl : Clear N S) :
    Clear N (discoverAll same kids S).1 ∧
      ∀ p x s, Overlaid N (p ++ [x]) s → render p ∈ keys S.nodes → instOf (discoverAll same kids S).1 (render (p ++ [x])) = some (render s) := by
  have key : ∀ (l : List Str) (acc : St × List (Str × Str)), (∀ q ∈ l, q ∈ keys S.nodes) → Good N acc.1 →
      keys acc.1.nodes = keys S.nodes → Clear N acc.1 →
      let R := l.foldl (fun acc p => ((discover same kids acc.1 p).1, acc.2 ++ (discover same kids acc.1 p).2)) acc
      Clear N R.1 ∧ ∀ p x s, Overlaid N (p ++ [x]) s → (render p ∈ l ∨ instOf acc.1 (render (p ++ [x])) = some (render s)) →
        instOf R.1 (render (p ++ [x])) = some (render s) := by
    intro l
    induction l with
    | nil =>
      intro acc _ _ _ hh
      refine ⟨hh, fun p x s _ ho => ?_⟩
      rcases ho with ho | ho
      · cases ho
      · exact ho
    | cons p l ih =>
      intro acc hl h1 h2 hh
      have hp : p ∈ keys acc.1.nodes := by rw [h2]; exact hl p List.mem_cons_self
      obtain ⟨d1, d2, -⟩ := discover_spec same hk h1 hp
      obtain ⟨p', rfl, hm⟩ := h1.node p hp
      obtain ⟨r1, r2⟩ := ih ((discover same kids acc.1 (render p')).1, acc.2 ++ (discover same kids acc.1 (render p')).2)
        (fun q hq => hl q (List.mem_cons_of_mem _ hq)) d1 (d2.trans h2) (clear_discover same hk h1 hh hm)
      refine ⟨r1, fun q x s o ho => r2 q x s o ?_⟩
      have hq := (names_append.1 o.names).1
      rcases ho with ho | ho
      · rcases List.mem_cons.1 ho with ho | ho
        · have he := render_inj hq hm.names ho
          subst he
          exact .inr (overlaid_discover same hk h1 C hw hh hm hp o (.inl ⟨x, rfl⟩))
        · exact .inl ho
      · exact .inr (overlaid_discover same hk h1 C hw hh hm hp o (.inr ho))
  obtain ⟨r1, r2⟩ := key (deepSort S) (S, []) (fun q hq => (mem_deepSort h.ok q).1 hq) h rfl hcl
  exact ⟨r1, fun p x s o hp => r2 p x s o (.inl ((mem_deepSort h.ok _).2 hp))⟩

theorem clear_createFold (same : Str → Str → Bool) {K : List Str} (l : List (Str × Str)) (hl : ∀ st ∈ l, Todo N K st) :
    ∀ acc : St × List Str, Clear N acc.1 → Clear N (l.foldl (create same) acc).1 := by
  induction l with
  | nil => intro acc h; exact h
  | cons st l ih =>
    intro acc h
    rw [List.foldl_cons]
    refine ih (fun s hs => hl s (List.mem_cons_of_mem _ hs)) _ (fun c hN hb => ?_)
    rw [instOf_create same (hl st List.mem_cons_self) hN (by rw [hb]; simp)]
    exact h c hN hb

theorem overlaid_proxyLoop (same : Str → Str → Bool) {kids : List Str → Str → List Str} (hk : GivesKids kids) (C : Separate N)
    (hw : ∀ i, N [] = some (some i) → i = []) : ∀ fuel (acc : St × List Str) T imp, Good N acc.1 → ImpOk N acc → Clear N acc.1 →
    proxyLoop same kids fuel acc = some (T, imp) → ∀ c s, Overlaid N c s → instOf T (render c) = some (render s) := by
  intro fuel
  induction fuel with
  | zero => intro acc T imp _ _ _ h; cases h
  | succ fuel ih =>
    intro acc T imp hg hi hh h
    rw [proxyLoop] at h
    obtain ⟨d1, d2, d3, d4⟩ := discoverAll_spec same hk hg
    obtain ⟨e1, e2⟩ := overlaid_discoverAll same hk hg C hw hh
    have hi' : ImpOk N ((discoverAll same kids acc.1).1, acc.2) := by
      refine ⟨fun q hq => ?_, hi.new, fun U p a x rest => ?_⟩
      · rw [d2]; exact hi.there q hq
      · rw [d2]; exact hi.plain U p a x rest
    split at h
    · rename_i he
      cases h
      intro c s o
      obtain ⟨q, r, t, ht, rfl, rfl, hi⟩ := o.from_
      rcases eq_nil_or_snoc t with rfl | ⟨u, y, rfl⟩
      · exact absurd rfl ht
      · have hrN : Names r := by obtain ⟨-, i, -, hr⟩ := hi; exact hr.2.1
        have hsN : Names (r ++ (u ++ [y])) := names_append.2 ⟨hrN, (names_append.1 o.names).2⟩
        have hm := (Props.sep_copies C hi u [y] (by rw [List.append_assoc]; exact hsN) (by rw [List.append_assoc]; exact o.there)).1
        have hin := closed_calm same hk (Props.Separate.calm C) hw hg (d4 he) hm _ rfl
        have := e2 (q ++ u) y (r ++ (u ++ [y])) (by rw [List.append_assoc]; exact o) hin
        rwa [List.append_assoc] at this
    · obtain ⟨c1, c2, -⟩ := createFold_spec same _ d3 ((discoverAll same kids acc.1).1, acc.2) d1 hi'
        (fun q hq => by rw [d2]; exact hq)
      exact ih _ _ _ c1 c2 (clear_createFold same _ d3 _ e1) h

end Nxt.Proxies
