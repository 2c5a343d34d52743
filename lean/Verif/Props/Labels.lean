import Verif.Spec.Labels
import Verif.Lemmas.Dict
/-!
# C157: aliases, colours and locks of the layers of a whole stage
-/
namespace Nxt.Props
open Dict Layer Labels Spec

namespace Label

variable {K V : Type} [DecidableEq K]

theorem foldl_get {ts : List (Dict K V)} (h : ∀ t ∈ ts, Ok t) (acc : Dict K V) (k : K) :
    get? k (ts.foldl update acc) = (get? k (compedOvers ts)).or (get? k acc) := by
  unfold compedOvers
  induction ts generalizing acc with
  | nil => rfl
  | cons t ts ih =>
    have ht := h t List.mem_cons_self
    have hts := fun t ht => h t (List.mem_cons_of_mem _ ht)
    rw [List.foldl_cons, List.foldl_cons, ih hts (update acc t), ih hts (update [] t), get?_update ht, get?_update ht]
    cases get? k (ts.foldl update []) <;> cases get? k t <;> simp [get?]

theorem comped_cons {t : Dict K V} {ts : List (Dict K V)} (ht : Ok t) (h : ∀ t ∈ ts, Ok t) (k : K) :
    get? k (compedOvers (t :: ts)) = (get? k (compedOvers ts)).or (get? k t) := by
  show get? k (ts.foldl update (update [] t)) = _
  rw [foldl_get h, get?_update ht]
  simp [get?]

theorem comped_snoc {t : Dict K V} (ts : List (Dict K V)) (ht : Ok t) (k : K) :
    get? k (compedOvers (ts ++ [t])) = (get? k t).or (get? k (compedOvers ts)) := by
  unfold compedOvers
  rw [List.foldl_append]
  exact get?_update ht k

theorem comped_none {ts : List (Dict K V)} {k : K} (h : ∀ t ∈ ts, Ok t ∧ get? k t = none) :
    get? k (compedOvers ts) = none := by
  induction ts with
  | nil => rfl
  | cons t ts ih =>
    rw [comped_cons (h t List.mem_cons_self).1 (fun t ht => (h t (List.mem_cons_of_mem _ ht)).1),
      ih (fun t ht => h t (List.mem_cons_of_mem _ ht)), (h t List.mem_cons_self).2]
    rfl

/-- All tables of one kind are dicts. -/
def Fine (tab : Tables K → Dict K V) (layers : List (Labelled K)) : Prop := ∀ l ∈ layers, Ok (tab l.tables)

theorem fine_table {tab : Tables K → Dict K V} {layers : List (Labelled K)} (h : Fine tab layers) (i : Nat) :
    Ok (tableOf tab layers i) := by
  unfold tableOf
  split
  · exact ok_nil
  · rename_i l hl
    exact h l (List.mem_of_getElem? hl)

theorem seen {tab : Tables K → Dict K V} {layers : List (Labelled K)} (ho : OneTop layers) (hf : Fine tab layers)
    (k : K) : ∀ (fuel i : Nat), i < fuel → i < layers.length →
    (∃ x j t, get? k (compedOvers ((walk layers fuel i).map (tableOf tab layers))) = some x ∧ ReachesUp layers i j ∧
        layers[j]? = some t ∧ get? k (tab t.tables) = some x ∧
        ∀ m t', ReachesUp layers j m → m ≠ j → layers[m]? = some t' → get? k (tab t'.tables) = none) ∨
     (get? k (compedOvers ((walk layers fuel i).map (tableOf tab layers))) = none ∧
        ∀ j t, ReachesUp layers i j → layers[j]? = some t → get? k (tab t.tables) = none)
  | 0, _, h, _ => absurd h (Nat.not_lt_zero _)
  | fuel + 1, i, hi, hl => by
    have hs : layers[i]? = some layers[i] := List.getElem?_eq_getElem hl
    have hw := ho i _ hs
    have htab : tableOf tab layers i = tab (layers[i]).tables := by simp only [tableOf, hs]
    by_cases h0 : i = 0
    · have hp := hw.1 h0
      have hwalk : walk layers (fuel + 1) i = [i] := by simp only [walk, hs, hp]
      have hup : ∀ m, ReachesUp layers i m → m = i := by
        intro m hm
        cases hm with
        | self => rfl
        | up _ p _ l h1 h2 _ =>
          rw [hs] at h1; cases h1
          rw [hp] at h2; cases h2
      rw [hwalk]
      have hg : get? k (compedOvers ([i].map (tableOf tab layers))) = get? k (tab (layers[i]).tables) := by
        show get? k (compedOvers ([] ++ [tableOf tab layers i])) = _
        rw [comped_snoc [] (fine_table hf i), htab]
        cases get? k (tab (layers[i]).tables) <;> rfl
      rw [hg]
      cases hx : get? k (tab (layers[i]).tables) with
      | some x =>
        exact .inl ⟨x, i, _, rfl, .self i, hs, hx, fun m t' hm hne => absurd (hup m hm) hne⟩
      | none =>
        refine .inr ⟨rfl, fun j t hj ht => ?_⟩
        obtain rfl := hup j hj
        rw [hs] at ht; cases ht
        exact hx
    · obtain ⟨p, hp, hlt⟩ := hw.2 h0
      have hwalk : walk layers (fuel + 1) i = i :: walk layers fuel p := by simp only [walk, hs, hp]
      have hup : ∀ m, ReachesUp layers i m → m = i ∨ ReachesUp layers p m := by
        intro m hm
        cases hm with
        | self => exact .inl rfl
        | up _ q _ l h1 h2 h3 =>
          rw [hs] at h1; cases h1
          rw [hp] at h2; cases h2
          exact .inr h3
      have hto : ∀ m, ReachesUp layers p m → ReachesUp layers i m := fun m hm => .up i p m _ hs hp hm
      have hg : get? k (compedOvers ((walk layers (fuel + 1) i).map (tableOf tab layers))) =
          (get? k (compedOvers ((walk layers fuel p).map (tableOf tab layers)))).or
            (get? k (tab (layers[i]).tables)) := by
        rw [hwalk, List.map_cons, comped_cons (fine_table hf i), htab]
        intro t ht
        obtain ⟨m, _, rfl⟩ := List.mem_map.1 ht
        exact fine_table hf m
      rw [hg]
      rcases seen ho hf k fuel p (by omega) (by omega) with ⟨x, j, t, h1, h2, h3, h4, h5⟩ | ⟨h1, h2⟩
      · exact .inl ⟨x, j, t, by rw [h1]; rfl, hto j h2, h3, h4, h5⟩
      · rw [h1]
        cases hx : get? k (tab (layers[i]).tables) with
        | some x =>
          refine .inl ⟨x, i, _, rfl, .self i, hs, hx, fun m t' hm hne ht' => ?_⟩
          rcases hup m hm with h | h
          · exact absurd h hne
          · exact h2 m t' h ht'
        | none =>
          refine .inr ⟨rfl, fun j t hj ht => ?_⟩
          rcases hup j hj with rfl | h
          · rw [hs] at ht; cases ht; exact hx
          · exact h2 j t h ht

/-- What is seen is what the specification says. -/
theorem seen_label {tab : Tables K → Dict K V} (own : Labelled K → Option V) {layers : List (Labelled K)}
    (ho : OneTop layers) (hf : Fine tab layers) (i : Nat) (hi : i < layers.length) (fb : Bool) :
    SeenLabel tab own layers i fb (metaAttr tab own layers i false fb) := by
  have hs : layers[i]? = some layers[i] := List.getElem?_eq_getElem hi
  refine ⟨_, hs, ?_⟩
  unfold metaAttr getMetaAttr
  simp only [hs]
  rcases seen ho hf (layers[i]).path layers.length i hi hi with ⟨x, j, t, h1, h2, h3, h4, h5⟩ | ⟨h1, h2⟩
  · exact .inl ⟨j, t, x, h2, h3, h4, by simp [h1], h5⟩
  · exact .inr ⟨h2, by simp [h1]⟩

/-- The walk ends at the top. -/
theorem walk_top {layers : List (Labelled K)} (ho : OneTop layers) : ∀ (fuel i : Nat), i < fuel → i < layers.length →
    ∃ init, walk layers fuel i = init ++ [0] ∧ 0 ∉ init
  | 0, _, h, _ => absurd h (Nat.not_lt_zero _)
  | fuel + 1, i, hi, hl => by
    have hs : layers[i]? = some layers[i] := List.getElem?_eq_getElem hl
    have hw := ho i _ hs
    by_cases h0 : i = 0
    · refine ⟨[], ?_, fun h => nomatch h⟩
      have hp := hw.1 h0
      simp only [walk, hs, hp]
      rw [h0]; rfl
    · obtain ⟨p, hp, hlt⟩ := hw.2 h0
      obtain ⟨init, h1, h2⟩ := walk_top ho fuel p (by omega) (by omega)
      refine ⟨i :: init, by simp only [walk, hs, hp, h1, List.cons_append], ?_⟩
      intro h
      rcases List.mem_cons.1 h with h | h
      · exact h0 h.symm
      · exact h2 h

theorem root_top {layers : List (Labelled K)} (ho : OneTop layers) {i : Nat} (hi : i < layers.length) (h0 : i ≠ 0) :
    rootParent layers i = some 0 := by
  have hs : layers[i]? = some layers[i] := List.getElem?_eq_getElem hi
  obtain ⟨p, hp, hlt⟩ := (ho i _ hs).2 h0
  obtain ⟨init, h1, _⟩ := walk_top ho layers.length p (by omega) (by omega)
  simp only [rootParent, hs, hp, h1, List.getLast?_append, List.getLast?_singleton, Option.some_or]

/-- Changing the tables of the top. -/
def retop (layers : List (Labelled K)) (top : Labelled K) (t : Tables K) : List (Labelled K) :=
  layers.set 0 { top with tables := t }

theorem retop_get {layers : List (Labelled K)} {top : Labelled K} (h : layers[0]? = some top) (t : Tables K) (i : Nat) :
    (retop layers top t)[i]? = if i = 0 then some { top with tables := t } else layers[i]? := by
  unfold retop
  rw [List.getElem?_set]
  by_cases h0 : i = 0
  · subst h0
    have : 0 < layers.length := by
      rcases Nat.lt_or_ge 0 layers.length with h1 | h1
      · exact h1
      · rw [List.getElem?_eq_none h1] at h; cases h
    simp [this]
  · simp [h0, Ne.symm h0]

theorem retop_one {layers : List (Labelled K)} {top : Labelled K} (h : layers[0]? = some top) (t : Tables K)
    (ho : OneTop layers) : OneTop (retop layers top t) := by
  intro i l hl
  rw [retop_get h] at hl
  by_cases h0 : i = 0
  · subst h0
    rw [if_pos rfl] at hl
    cases hl
    exact ho 0 top h
  · rw [if_neg h0] at hl
    exact ho i l hl

theorem retop_walk {layers : List (Labelled K)} {top : Labelled K} (h : layers[0]? = some top) (t : Tables K) :
    ∀ (fuel i : Nat), walk (retop layers top t) fuel i = walk layers fuel i
  | 0, _ => rfl
  | fuel + 1, i => by
    have ih := retop_walk h t fuel
    by_cases h0 : i = 0
    · subst h0
      have e : (retop layers top t)[0]? = some { top with tables := t } := by rw [retop_get h, if_pos rfl]
      cases hp : top.parent <;> simp only [walk, h, e, hp, ih]
    · have e : (retop layers top t)[i]? = layers[i]? := by rw [retop_get h, if_neg h0]
      simp only [walk, e, ih]

/-- What is seen of a label, with the top apart. -/
theorem meta_top {tab : Tables K → Dict K V} (own : Labelled K → Option V) {layers : List (Labelled K)}
    {top : Labelled K} (h : layers[0]? = some top) (ho : OneTop layers) (hf : Fine tab layers) {t : Tables K}
    (ht : Ok (tab t)) (hown : own { top with tables := t } = own top) {i : Nat} (hi : i < layers.length) (fb : Bool) :
    ∃ rest : Option V,
      metaAttr tab own layers i false fb = ((get? (layers[i]).path (tab top.tables)).or rest) ∧
      metaAttr tab own (retop layers top t) i false fb = ((get? (layers[i]).path (tab t)).or rest) ∧
      ((∀ j l, j ≠ 0 → layers[j]? = some l → get? (layers[i]).path (tab l.tables) = none) →
        rest = if fb then own layers[i] else none) := by
  obtain ⟨init, hw, hn⟩ := walk_top ho layers.length i hi hi
  have hs : layers[i]? = some layers[i] := List.getElem?_eq_getElem hi
  have hlen : (retop layers top t).length = layers.length := by simp [retop]
  have htop : tableOf tab layers 0 = tab top.tables := by simp only [tableOf, h]
  have htop' : tableOf tab (retop layers top t) 0 = tab t := by
    simp only [tableOf, retop_get h, if_pos]
  have hinit : init.map (tableOf tab (retop layers top t)) = init.map (tableOf tab layers) := by
    apply List.map_congr_left
    intro m hm
    have : m ≠ 0 := fun e => hn (e ▸ hm)
    simp only [tableOf, retop_get h, if_neg this]
  have hok0 : Ok (tab top.tables) := hf top (List.mem_of_getElem? h)
  refine ⟨(get? (layers[i]).path (compedOvers (init.map (tableOf tab layers)))).or
    (if fb then own layers[i] else none), ?_, ?_, ?_⟩
  · unfold metaAttr getMetaAttr
    simp only [hs]
    rw [hw, List.map_append, List.map_singleton, htop, comped_snoc _ hok0]
    cases get? (layers[i]).path (tab top.tables) <;>
      cases get? (layers[i]).path (compedOvers (init.map (tableOf tab layers))) <;> cases fb <;> simp
  · obtain ⟨l', hl', hpath, howns⟩ : ∃ l', (retop layers top t)[i]? = some l' ∧ l'.path = (layers[i]).path ∧
        own l' = own layers[i] := by
      by_cases h0 : i = 0
      · subst h0
        rw [hs] at h
        have e := Option.some.inj h
        exact ⟨{ top with tables := t }, by rw [retop_get (by rw [hs, e]), if_pos rfl], by rw [e], by rw [hown, e]⟩
      · exact ⟨_, by rw [retop_get h, if_neg h0, hs], rfl, rfl⟩
    unfold metaAttr getMetaAttr
    simp only [hl', hpath, howns]
    rw [hlen, retop_walk h, hw, List.map_append, List.map_singleton, htop', hinit, comped_snoc _ ht]
    cases get? (layers[i]).path (tab t) <;>
      cases get? (layers[i]).path (compedOvers (init.map (tableOf tab layers))) <;> cases fb <;> simp
  · intro hno
    have hnone : get? (layers[i]).path (compedOvers (init.map (tableOf tab layers))) = none := by
      apply comped_none
      intro d hd
      obtain ⟨m, hm, rfl⟩ := List.mem_map.1 hd
      refine ⟨fine_table hf m, ?_⟩
      have h0 : m ≠ 0 := fun e => hn (e ▸ hm)
      unfold tableOf
      cases hl : layers[m]? with
      | none => rfl
      | some l => exact hno m l h0 hl
    rw [hnone]
    rfl

theorem set_over {f : Option (Tables K) → K → SetRes (Tables K)} {layers : List (Labelled K)} {top : Labelled K}
    (h : layers[0]? = some top) (ho : OneTop layers) {i : Nat} (hi : i < layers.length) (h0 : i ≠ 0) {t : Tables K}
    (hf : f (some top.tables) (layers[i]).path = .ok t) : setOver f layers i = .ok (retop layers top t) := by
  have hs : layers[i]? = some layers[i] := List.getElem?_eq_getElem hi
  simp only [setOver, hs, root_top ho hi h0, h, hf]
  rfl

end Label

variable {K : Type} [DecidableEq K]

/-- C157: the alias seen of a layer is the entry for its path in the uppermost layer having one, else its own. -/
theorem C157_alias_seen (layers : List (Labelled K)) (ho : OneTop layers) (hf : LabelTables layers) (i : Nat)
    (hi : i < layers.length) (fb : Bool) :
    SeenLabel Tables.aliases Labelled.alias layers i fb (getAlias layers i false fb) :=
  Label.seen_label _ ho (fun l hl => (hf l hl).1) i hi fb

/-- C157: the same for colours. -/
theorem C157_color_seen (layers : List (Labelled K)) (ho : OneTop layers) (hf : LabelTables layers) (i : Nat)
    (hi : i < layers.length) (fb : Bool) :
    SeenLabel Tables.colors Labelled.color layers i fb (getColor layers i false fb) :=
  Label.seen_label _ ho (fun l hl => (hf l hl).2.1) i hi fb

/-- C157: the same for locks; no opinion means not locked. -/
theorem C157_lock_seen (layers : List (Labelled K)) (ho : OneTop layers) (hf : LabelTables layers) (i : Nat)
    (hi : i < layers.length) (fb : Bool) :
    ∃ v, SeenLabel Tables.locks Labelled.lock layers i fb v ∧ getLocked layers i false fb = v.getD false :=
  ⟨_, Label.seen_label _ ho (fun l hl => (hf l hl).2.2) i hi fb, rfl⟩

/-- C157: asked for its own label a layer gives just that. -/
theorem C157_local (layers : List (Labelled K)) (i : Nat) (l : Labelled K) (h : layers[i]? = some l) (fb : Bool) :
    getAlias layers i true fb = l.alias ∧ getColor layers i true fb = l.color ∧
      getLocked layers i true fb = l.lock.getD false := by
  simp [getAlias, getColor, getLocked, metaAttr, h]

/-- C157: an alias put over a layer is seen of every layer of that path, and of no other; colours, locks and the own
aliases stay. -/
theorem C157_alias_set (layers : List (Labelled K)) (ho : OneTop layers) (hf : LabelTables layers) (i : Nat)
    (hi : i < layers.length) (h0 : i ≠ 0) (a : Str) :
    ∃ after, setAlias layers i (some a) = .ok after ∧ after.length = layers.length ∧
      ∀ j (hj : j < layers.length) fb,
        getAlias after j false fb = (if (layers[j]).path = (layers[i]).path then some a else getAlias layers j false fb) ∧
        getAlias after j true fb = getAlias layers j true fb ∧
        getColor after j false fb = getColor layers j false fb ∧
        getLocked after j false fb = getLocked layers j false fb := by
  have hl0 : 0 < layers.length := by omega
  have htop : layers[0]? = some layers[0] := List.getElem?_eq_getElem hl0
  have hok := hf _ (List.getElem_mem hl0)
  let t : Tables K := { (layers[0]).tables with aliases := set (layers[i]).path a (layers[0]).tables.aliases }
  refine ⟨Label.retop layers layers[0] t, Label.set_over htop ho hi h0 rfl, by simp [Label.retop], ?_⟩
  intro j hj fb
  refine ⟨?_, ?_, ?_, ?_⟩
  · obtain ⟨r, h1, h2, _⟩ := Label.meta_top (tab := Tables.aliases) Labelled.alias htop ho (fun l hl => (hf l hl).1)
      (t := t) (ok_set hok.1 _ _) rfl hj fb
    show metaAttr _ _ _ _ _ _ = if _ then _ else metaAttr _ _ _ _ _ _
    rw [h1, h2]
    show ((get? _ (set _ a _)).or r) = _
    rw [get?_set]
    split <;> rfl
  · have e := Label.retop_get htop t j
    by_cases hz : j = 0
    · subst hz
      rw [if_pos rfl] at e
      rw [(C157_local _ 0 _ e fb).1, (C157_local _ 0 _ htop fb).1]
    · rw [if_neg hz] at e
      simp only [getAlias, metaAttr, e]
      rfl
  · obtain ⟨r, h1, h2, _⟩ := Label.meta_top (tab := Tables.colors) Labelled.color htop ho (fun l hl => (hf l hl).2.1)
      (t := t) hok.2.1 rfl hj fb
    exact h2.trans h1.symm
  · obtain ⟨r, h1, h2, _⟩ := Label.meta_top (tab := Tables.locks) Labelled.lock htop ho (fun l hl => (hf l hl).2.2)
      (t := t) hok.2.2 rfl hj fb
    exact congrArg (fun v : Option Bool => v.getD false) (h2.trans h1.symm)

/-- C157: the same for a colour. -/
theorem C157_color_set (layers : List (Labelled K)) (ho : OneTop layers) (hf : LabelTables layers) (i : Nat)
    (hi : i < layers.length) (h0 : i ≠ 0) (a : Str) :
    ∃ after, setColor layers i (some a) = .ok after ∧ after.length = layers.length ∧
      ∀ j (hj : j < layers.length) fb,
        getColor after j false fb = (if (layers[j]).path = (layers[i]).path then some a else getColor layers j false fb) ∧
        getAlias after j false fb = getAlias layers j false fb ∧
        getLocked after j false fb = getLocked layers j false fb := by
  have hl0 : 0 < layers.length := by omega
  have htop : layers[0]? = some layers[0] := List.getElem?_eq_getElem hl0
  have hok := hf _ (List.getElem_mem hl0)
  let t : Tables K := { (layers[0]).tables with colors := set (layers[i]).path a (layers[0]).tables.colors }
  refine ⟨Label.retop layers layers[0] t, Label.set_over htop ho hi h0 rfl, by simp [Label.retop], ?_⟩
  intro j hj fb
  refine ⟨?_, ?_, ?_⟩
  · obtain ⟨r, h1, h2, _⟩ := Label.meta_top (tab := Tables.colors) Labelled.color htop ho (fun l hl => (hf l hl).2.1)
      (t := t) (ok_set hok.2.1 _ _) rfl hj fb
    show metaAttr _ _ _ _ _ _ = if _ then _ else metaAttr _ _ _ _ _ _
    rw [h1, h2]
    show ((get? _ (set _ a _)).or r) = _
    rw [get?_set]
    split <;> rfl
  · obtain ⟨r, h1, h2, _⟩ := Label.meta_top (tab := Tables.aliases) Labelled.alias htop ho (fun l hl => (hf l hl).1)
      (t := t) hok.1 rfl hj fb
    exact h2.trans h1.symm
  · obtain ⟨r, h1, h2, _⟩ := Label.meta_top (tab := Tables.locks) Labelled.lock htop ho (fun l hl => (hf l hl).2.2)
      (t := t) hok.2.2 rfl hj fb
    exact congrArg (fun v : Option Bool => v.getD false) (h2.trans h1.symm)

/-- C157: the same for a lock. -/
theorem C157_lock_set (layers : List (Labelled K)) (ho : OneTop layers) (hf : LabelTables layers) (i : Nat)
    (hi : i < layers.length) (h0 : i ≠ 0) (b : Bool) :
    ∃ after, setLock layers i (some b) = .ok after ∧ after.length = layers.length ∧
      ∀ j (hj : j < layers.length) fb,
        getLocked after j false fb = (if (layers[j]).path = (layers[i]).path then b else getLocked layers j false fb) ∧
        getAlias after j false fb = getAlias layers j false fb ∧
        getColor after j false fb = getColor layers j false fb := by
  have hl0 : 0 < layers.length := by omega
  have htop : layers[0]? = some layers[0] := List.getElem?_eq_getElem hl0
  have hok := hf _ (List.getElem_mem hl0)
  let t : Tables K := { (layers[0]).tables with locks := set (layers[i]).path b (layers[0]).tables.locks }
  refine ⟨Label.retop layers layers[0] t, Label.set_over htop ho hi h0 rfl, by simp [Label.retop], ?_⟩
  intro j hj fb
  refine ⟨?_, ?_, ?_⟩
  · obtain ⟨r, h1, h2, _⟩ := Label.meta_top (tab := Tables.locks) Labelled.lock htop ho (fun l hl => (hf l hl).2.2)
      (t := t) (ok_set hok.2.2 _ _) rfl hj fb
    show (metaAttr _ _ _ _ _ _).getD false = if _ then _ else (metaAttr _ _ _ _ _ _).getD false
    rw [h1, h2]
    show ((get? _ (set _ b _)).or r).getD false = _
    rw [get?_set]
    split <;> rfl
  · obtain ⟨r, h1, h2, _⟩ := Label.meta_top (tab := Tables.aliases) Labelled.alias htop ho (fun l hl => (hf l hl).1)
      (t := t) hok.1 rfl hj fb
    exact h2.trans h1.symm
  · obtain ⟨r, h1, h2, _⟩ := Label.meta_top (tab := Tables.colors) Labelled.color htop ho (fun l hl => (hf l hl).2.1)
      (t := t) hok.2.1 rfl hj fb
    exact h2.trans h1.symm

/-- C157: taking an alias and a colour away shows the own ones again, when only the top had entries for the path.
Missing: entries of layers between, which the setters never touch, see `C157_kept_violation`. -/
theorem C157_clear_partial (layers : List (Labelled K)) (ho : OneTop layers) (hf : LabelTables layers) (i : Nat)
    (hi : i < layers.length) (h0 : i ≠ 0)
    (hm : ∀ j l, j ≠ 0 → layers[j]? = some l →
      get? (layers[i]).path l.tables.aliases = none ∧ get? (layers[i]).path l.tables.colors = none) :
    (∃ after, setAlias layers i none = .ok after ∧ getAlias after i false true = (layers[i]).alias ∧
      ∀ j (hj : j < layers.length) fb, (layers[j]).path ≠ (layers[i]).path →
        getAlias after j false fb = getAlias layers j false fb) ∧
    (∃ after, setColor layers i none = .ok after ∧ getColor after i false true = (layers[i]).color ∧
      ∀ j (hj : j < layers.length) fb, (layers[j]).path ≠ (layers[i]).path →
        getColor after j false fb = getColor layers j false fb) := by
  have hl0 : 0 < layers.length := by omega
  have htop : layers[0]? = some layers[0] := List.getElem?_eq_getElem hl0
  have hok := hf _ (List.getElem_mem hl0)
  constructor
  · let t : Tables K := { (layers[0]).tables with aliases := erase (layers[i]).path (layers[0]).tables.aliases }
    have hset : setAliasOver (some (layers[0]).tables) (layers[i]).path none = .ok t := by
      show SetRes.ok (if _ then _ else _) = _
      split
      · rfl
      · rename_i hk
        show SetRes.ok (layers[0]).tables = .ok { (layers[0]).tables with aliases := _ }
        rw [erase_of_not_mem hk]
    refine ⟨_, Label.set_over htop ho hi h0 hset, ?_, ?_⟩
    · obtain ⟨r, _, h2, h3⟩ := Label.meta_top (tab := Tables.aliases) Labelled.alias htop ho (fun l hl => (hf l hl).1)
        (t := t) (ok_erase hok.1 _) rfl hi true
      have hr := h3 (fun j l hj hl => (hm j l hj hl).1)
      refine h2.trans ?_
      show ((get? _ (erase _ _)).or r) = _
      rw [get?_erase hok.1, if_pos rfl, hr]
      rfl
    · intro j hj fb hne
      obtain ⟨r, h1, h2, _⟩ := Label.meta_top (tab := Tables.aliases) Labelled.alias htop ho (fun l hl => (hf l hl).1)
        (t := t) (ok_erase hok.1 _) rfl hj fb
      refine h2.trans (Eq.trans ?_ h1.symm)
      show ((get? _ (erase _ _)).or r) = _
      rw [get?_erase hok.1, if_neg hne]
  · let t : Tables K := { (layers[0]).tables with colors := erase (layers[i]).path (layers[0]).tables.colors }
    have hset : setColorOver (some (layers[0]).tables) (layers[i]).path none = .ok t := by
      show SetRes.ok (if _ then _ else _) = _
      split
      · rfl
      · rename_i hk
        show SetRes.ok (layers[0]).tables = .ok { (layers[0]).tables with colors := _ }
        rw [erase_of_not_mem hk]
    refine ⟨_, Label.set_over htop ho hi h0 hset, ?_, ?_⟩
    · obtain ⟨r, _, h2, h3⟩ := Label.meta_top (tab := Tables.colors) Labelled.color htop ho (fun l hl => (hf l hl).2.1)
        (t := t) (ok_erase hok.2.1 _) rfl hi true
      have hr := h3 (fun j l hj hl => (hm j l hj hl).2)
      refine h2.trans ?_
      show ((get? _ (erase _ _)).or r) = _
      rw [get?_erase hok.2.1, if_pos rfl, hr]
      rfl
    · intro j hj fb hne
      obtain ⟨r, h1, h2, _⟩ := Label.meta_top (tab := Tables.colors) Labelled.color htop ho (fun l hl => (hf l hl).2.1)
        (t := t) (ok_erase hok.2.1 _) rfl hj fb
      refine h2.trans (Eq.trans ?_ h1.symm)
      show ((get? _ (erase _ _)).or r) = _
      rw [get?_erase hok.2.1, if_neg hne]

/-- C157: the setters of overrides raise on the top layer. -/
theorem C157_top (layers : List (Labelled K)) (ho : OneTop layers) (hl : layers ≠ []) (a : Option Str) (b : Option Bool) :
    setAlias layers 0 a = .noRoot ∧ setColor layers 0 a = .noRoot ∧ setLock layers 0 b = .noRoot := by
  have h : layers[0]? = some (layers[0]'(List.length_pos_iff.2 hl)) := List.getElem?_eq_getElem _
  have hp := (ho 0 _ h).1 rfl
  simp [setAlias, setColor, setLock, setOver, rootParent, h, hp]

/-- C157: a layer looked for by its alias is the first one of which it is seen. -/
theorem C157_find (layers : List (Labelled K)) (a : Str) (i : Nat) :
    findLayer layers a = some i ↔ i < layers.length ∧ getAlias layers i false true = some a ∧
      ∀ j, j < i → getAlias layers j false true ≠ some a := by
  unfold findLayer
  rw [List.find?_range_eq_some]
  simp only [decide_eq_true_eq, List.mem_range, Bool.not_eq_true', decide_eq_false_iff_not]
  constructor
  · rintro ⟨h1, h2, h3⟩
    exact ⟨h2, h1, h3⟩
  · rintro ⟨h1, h2, h3⟩
    exact ⟨h2, h1, h3⟩

/-- C157: after an alias which no layer before has was put over a layer, the layer is found by it. -/
theorem C157_find_set (layers : List (Labelled K)) (ho : OneTop layers) (hf : LabelTables layers) (i : Nat)
    (hi : i < layers.length) (h0 : i ≠ 0) (a : Str)
    (hb : ∀ j (hj : j < i), (layers[j]'(Nat.lt_trans hj hi)).path ≠ (layers[i]).path ∧
      getAlias layers j false true ≠ some a) :
    ∃ after, setAlias layers i (some a) = .ok after ∧ findLayer after a = some i := by
  obtain ⟨after, h1, h2, h3⟩ := C157_alias_set layers ho hf i hi h0 a
  refine ⟨after, h1, (C157_find after a i).2 ⟨by omega, ?_, ?_⟩⟩
  · rw [(h3 i hi true).1, if_pos rfl]
  · intro j hj
    rw [(h3 j (Nat.lt_trans hj hi) true).1, if_neg (hb j hj).1]
    exact (hb j hj).2

/-- Three layers, each the parent of the next; the one between names the lowest. -/
def exLabels : List (Labelled Nat) :=
  [{ path := 10, parent := none, alias := some "top".toList, color := none, lock := none,
     tables := { locks := [(12, true)] } },
   { path := 11, parent := some 0, alias := some "mid".toList, color := none, lock := none,
     tables := { aliases := [(12, "said".toList)] } },
   { path := 12, parent := some 1, alias := some "low".toList, color := some "red".toList, lock := none, tables := {} }]

theorem exLabels_top : OneTop exLabels := by
  intro i l h
  match i, h with
  | 0, h => cases h; exact ⟨fun _ => rfl, fun h => absurd rfl h⟩
  | 1, h => cases h; exact ⟨(fun h => nomatch h), fun _ => ⟨0, rfl, by decide⟩⟩
  | 2, h => cases h; exact ⟨(fun h => nomatch h), fun _ => ⟨1, rfl, by decide⟩⟩
  | n + 3, h => cases h

theorem exLabels_ok : LabelTables exLabels := by
  intro l hl
  simp only [exLabels, List.mem_cons, List.not_mem_nil, or_false] at hl
  rcases hl with rfl | rfl | rfl <;> exact ⟨by decide, by decide, by decide⟩

/-- C157: an alias a layer between has given is not taken away by taking the override of the layer away. -/
theorem C157_kept_violation : OneTop exLabels ∧ LabelTables exLabels ∧
    ∃ after, setAlias exLabels 2 none = .ok after ∧ getAlias after 2 false true = some "said".toList ∧
      getAlias after 2 true true = some "low".toList :=
  ⟨exLabels_top, exLabels_ok, _, rfl, by decide, by decide⟩

/-- C157: a lock put over a layer without colour stays when it is taken away. -/
theorem C157_locked_violation : getLocked exLabels 2 false true = true ∧
    ∃ after, setLock exLabels 2 none = .ok after ∧ getLocked after 2 false true = true :=
  ⟨by decide, _, rfl, by decide⟩

/-- The overrides of the example: the top has the last word. -/
example : getAlias exLabels 2 false true = some "said".toList ∧ getAlias exLabels 1 false true = some "mid".toList ∧
    getAlias exLabels 1 false false = none ∧ getColor exLabels 2 false true = some "red".toList ∧
    findLayer exLabels "mid".toList = some 1 ∧ findLayer exLabels "low".toList = none := by decide

example : ∃ after, setAlias exLabels 2 (some "new".toList) = .ok after ∧
    getAlias after 2 false true = some "new".toList ∧ findLayer after "new".toList = some 2 :=
  ⟨_, rfl, by decide, by decide⟩

/-- The hypothesis of `C157_clear_partial` for the layer between. -/
example : ∀ j l, j ≠ 0 → exLabels[j]? = some l →
    get? 11 l.tables.aliases = none ∧ get? 11 l.tables.colors = none := by
  intro j l hj h
  match j, h with
  | 0, _ => exact absurd rfl hj
  | 1, h => cases h; exact ⟨rfl, rfl⟩
  | 2, h => cases h; exact ⟨rfl, rfl⟩
  | n + 3, h => cases h

end Nxt.Props
