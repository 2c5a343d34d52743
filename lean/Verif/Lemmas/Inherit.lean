import Verif.Lemmas.Mro
import Verif.Lemmas.Dirty
import Verif.Lemmas.Path
import Verif.Lemmas.Legacy115
import Verif.Model.Inherit
import Verif.Spec.Inherit
/-!
# Lemmas about inheritance between composite nodes
-/
namespace Nxt.Inherit
open Dict NodeData Mro Spec

/-! ### Classes -/

/-- All bases are classes there are. -/
def Closed (g : Classes) : Prop := ∀ c < g.size, ∀ b ∈ g.bases c, b < g.size

theorem lin_lt {g : Classes} (hc : Closed g) {f : Nat} : ∀ {c : Nat} {l : List Nat}, c < g.size →
    lin g.bases f c = some l → ∀ d ∈ l, d < g.size := by
  induction f with
  | zero => intro c l _ h; simp [lin] at h
  | succ f ih =>
    intro c l hlt h d hd
    obtain ⟨f', m, hf, rfl, _, _, hb, hx⟩ := lin_parts h
    cases hf
    rcases List.mem_cons.1 hd with rfl | hd
    · exact hlt
    · rcases hx d hd with hd | ⟨b, hb, lb, hlb, hd⟩
      · exact hc c hlt d hd
      · exact ih (hc c hlt b hb) hlb d hd

/-- Any fuel which gives an order gives the order of the class. -/
theorem mro_of_lin {g : Classes} (hc : Closed g) {f c : Nat} {l : List Nat} (hlt : c < g.size)
    (h : lin g.bases f c = some l) : g.mro c = some l := by
  have h1 := lin_length h
  refine lin_mono ?_ h1
  have := Dirty.length_le_of_nodup (b := List.range g.size) (lin_nodup h) fun x hx =>
    List.mem_range.2 (lin_lt hc hlt h x hx)
  simpa using this

/-- The specs of a node come first in its order, then what its other bases give. -/
theorem merge_specs (specs : List Nat) : ∀ (k : Nat) (R : List (List Nat)) (rest : List Nat), specs.Nodup →
    0 ∉ specs → (∀ s ∈ specs, s ∉ rest ∧ ∀ l ∈ R, s ∉ l) →
    merge (List.replicate k [0] ++ specs.map (fun s => [s, 0]) ++ R ++ [specs ++ rest]) =
      (merge (List.replicate (k + specs.length) [0] ++ R ++ [rest])).map (specs ++ ·) := by
  induction specs with
  | nil => intro k R rest _ _ _; simp
  | cons s specs ih =>
    intro k R rest hn h0 hr
    have hs0 : s ≠ 0 := fun h => h0 (h ▸ List.mem_cons_self)
    have h0' : 0 ∉ specs := fun h => h0 (List.mem_cons_of_mem _ h)
    have hsn := (List.nodup_cons.1 hn).1
    have hsr := hr s List.mem_cons_self
    have hp : pick (List.replicate k [0] ++ (s :: specs).map (fun s => [s, 0]) ++ R ++ [s :: specs ++ rest])
        (List.replicate k [0] ++ (s :: specs).map (fun s => [s, 0]) ++ R ++ [s :: specs ++ rest]) = some s := by
      have : pick (List.replicate k [0] ++ (s :: specs).map (fun s => [s, 0]) ++ R ++ [s :: specs ++ rest])
          (List.replicate k [0] ++ ((s :: specs).map (fun s => [s, 0]) ++ R ++ [s :: specs ++ rest])) = some s := by
        rw [pick_skip]
        · apply pick_head
          intro l hl
          simp only [List.append_assoc, List.mem_append, List.mem_replicate, List.mem_map,
            List.mem_singleton] at hl
          rcases hl with ⟨_, rfl⟩ | ⟨t, ht, rfl⟩ | hl | rfl
          · simp
          · simpa using hs0
          · exact fun h => hsr.2 l hl (List.mem_of_mem_tail h)
          · simp only [List.cons_append, List.tail_cons, List.mem_append, not_or]
            exact ⟨hsn, hsr.1⟩
        · intro l hl h hh
          rw [List.eq_of_mem_replicate hl] at hh
          cases hh
          exact ⟨[s, 0], by simp, by simp⟩
      simpa only [List.append_assoc] using this
    rw [merge_step hp]
    have e1 : (List.replicate k [0]).map (strip s) = List.replicate k [0] := by
      rw [List.map_replicate, strip_not_mem (by simpa using hs0)]
    have e2 : (specs.map (fun s => [s, 0])).map (strip s) = specs.map (fun s => [s, 0]) := by
      rw [List.map_map]
      apply List.map_congr_left
      intro t ht
      refine strip_not_mem ?_
      simp only [List.mem_cons, List.not_mem_nil, or_false, not_or]
      exact ⟨fun h => hsn (h ▸ ht), hs0⟩
    have e3 : R.map (strip s) = R := by
      conv => rhs; rw [← List.map_id R]
      apply List.map_congr_left
      intro l hl
      exact strip_not_mem (hsr.2 l hl)
    have : List.map (strip s) (List.replicate k [0] ++ (s :: specs).map (fun s => [s, 0]) ++ R ++
        [s :: specs ++ rest]) = List.replicate (k + 1) [0] ++ specs.map (fun s => [s, 0]) ++ R ++ [specs ++ rest] := by
      rw [List.map_append, List.map_append, List.map_append, e1, e3, List.map_cons, List.map_cons, e2]
      simp only [List.map_cons, List.map_nil, strip_cons, List.cons_append]
      rw [List.replicate_succ']
      simp
    rw [this, ih (k + 1) R rest (List.nodup_cons.1 hn).2 h0' (fun t ht => hr t (List.mem_cons_of_mem _ ht))]
    have : k + 1 + specs.length = k + (s :: specs).length := by simp; omega
    rw [this]
    cases merge (List.replicate (k + (s :: specs).length) [0] ++ R ++ [rest]) <;> simp

/-- Two lists of the same length related item by item. -/
inductive Each {α β : Type} (R : α → β → Prop) : List α → List β → Prop
  | nil : Each R [] []
  | cons {a : α} {b : β} {as : List α} {bs : List β} : R a b → Each R as bs → Each R (a :: as) (b :: bs)

theorem Each.append {α β : Type} {R : α → β → Prop} {as as' : List α} {bs bs' : List β} (h : Each R as bs)
    (h' : Each R as' bs') : Each R (as ++ as') (bs ++ bs') := by
  induction h with
  | nil => exact h'
  | cons h _ ih => exact .cons h ih

theorem Each.mem_right {α β : Type} {R : α → β → Prop} {as : List α} {bs : List β} (h : Each R as bs) {b : β}
    (hb : b ∈ bs) : ∃ a ∈ as, R a b := by
  induction h with
  | nil => cases hb
  | cons h1 _ ih =>
    rcases List.mem_cons.1 hb with rfl | hb
    · exact ⟨_, List.mem_cons_self, h1⟩
    · obtain ⟨a, ha, hr⟩ := ih hb
      exact ⟨a, List.mem_cons_of_mem _ ha, hr⟩

theorem Each.mem_left {α β : Type} {R : α → β → Prop} {as : List α} {bs : List β} (h : Each R as bs) {a : α}
    (ha : a ∈ as) : ∃ b ∈ bs, R a b := by
  induction h with
  | nil => cases ha
  | cons h1 _ ih =>
    rcases List.mem_cons.1 ha with rfl | ha
    · exact ⟨_, List.mem_cons_self, h1⟩
    · obtain ⟨b, hb, hr⟩ := ih ha
      exact ⟨b, List.mem_cons_of_mem _ hb, hr⟩

/-- `l` is the order of the class `c`. -/
def Lin (g : Classes) (c : Nat) (l : List Nat) : Prop := ∃ f, lin g.bases f c = some l

theorem Lin.det {g : Classes} {c : Nat} {l l' : List Nat} (h : Lin g c l) (h' : Lin g c l') : l = l' := by
  obtain ⟨f, h⟩ := h
  obtain ⟨f', h'⟩ := h'
  exact lin_det h h'

theorem Lin.nodup {g : Classes} {c : Nat} {l : List Nat} (h : Lin g c l) : l.Nodup := by
  obtain ⟨f, h⟩ := h; exact lin_nodup h

theorem Lin.self {g : Classes} {c : Nat} {l : List Nat} (h : Lin g c l) : c ∈ l := by
  obtain ⟨f, h⟩ := h; exact lin_self h

theorem Lin.mem {g : Classes} {c d : Nat} {l : List Nat} (h : Lin g c l) (hd : d ∈ l) :
    ∃ ld, Lin g d ld ∧ List.Sublist ld l := by
  obtain ⟨f, h⟩ := h
  obtain ⟨ld, h1, h2⟩ := lin_mem h d hd
  exact ⟨ld, ⟨f, h1⟩, h2⟩

theorem Lin.base {g : Classes} {c b : Nat} {l : List Nat} (h : Lin g c l) (hb : b ∈ g.bases c) :
    ∃ lb m, Lin g b lb ∧ l = c :: m ∧ List.Sublist lb m := by
  obtain ⟨f, h⟩ := h
  obtain ⟨f', m, rfl, rfl, _, _, h1, _⟩ := lin_parts h
  obtain ⟨lb, h2, h3⟩ := h1 b hb
  exact ⟨lb, m, ⟨f', h2⟩, rfl, h3⟩

/-- Induction over orders: a class in the order of another is it or in the order of a base. -/
theorem Lin.induct {g : Classes} {P : Nat → List Nat → Prop}
    (step : ∀ c l, Lin g c l → (∀ b ∈ g.bases c, ∃ lb, Lin g b lb ∧ P b lb) →
      (∀ x ∈ l, x = c ∨ ∃ b ∈ g.bases c, ∃ lb, Lin g b lb ∧ x ∈ lb) → P c l)
    {c : Nat} {l : List Nat} (h : Lin g c l) : P c l := by
  obtain ⟨f, h⟩ := h
  induction f generalizing c l with
  | zero => simp [lin] at h
  | succ f ih =>
    obtain ⟨f', m, hf, rfl, _, _, hb, hx⟩ := lin_parts h
    cases hf
    refine step c _ ⟨_, h⟩ (fun b hbm => ?_) (fun x hxm => ?_)
    · obtain ⟨lb, h1, h2⟩ := hb b hbm
      exact ⟨lb, ⟨f, h1⟩, ih h1⟩
    · rcases List.mem_cons.1 hxm with rfl | hxm
      · exact Or.inl rfl
      · rcases hx x hxm with hb' | ⟨b, hb', lb, h1, h2⟩
        · obtain ⟨lb, h1, _⟩ := hb x hb'
          exact Or.inr ⟨x, hb', lb, ⟨f, h1⟩, lin_self h1⟩
        · exact Or.inr ⟨b, hb', lb, ⟨f, h1⟩, h2⟩

theorem Lin.of_bases {g : Classes} {c : Nat} {ls : List (List Nat)} {m : List Nat}
    (hl : Each (Lin g) (g.bases c) ls) (hm : merge (ls ++ [g.bases c]) = some m) : Lin g c (c :: m) := by
  have : ∃ f, (g.bases c).map (lin g.bases f) = ls.map some := by
    clear hm
    generalize g.bases c = bc at hl
    induction hl with
    | nil => exact ⟨0, rfl⟩
    | cons h _ ih =>
      obtain ⟨f, h⟩ := h
      obtain ⟨f', h'⟩ := ih
      refine ⟨max f f', ?_⟩
      rw [List.map_cons, List.map_cons, lin_mono (Nat.le_max_left _ _) h, ← h']
      congr 1
      apply List.map_congr_left
      intro b hb
      have : lin g.bases f' b ∈ List.map some _ := h' ▸ List.mem_map_of_mem hb
      obtain ⟨lb, _, he⟩ := List.mem_map.1 this
      rw [← he]
      exact lin_mono (Nat.le_max_right _ _) he.symm
  obtain ⟨f, hf⟩ := this
  exact ⟨f + 1, lin_succ.2 ⟨ls, m, hf, hm, rfl⟩⟩

theorem Lin.bases {g : Classes} {c : Nat} {l : List Nat} (h : Lin g c l) :
    ∃ ls m, Each (Lin g) (g.bases c) ls ∧ merge (ls ++ [g.bases c]) = some m ∧ l = c :: m := by
  obtain ⟨f, h⟩ := h
  cases f with
  | zero => simp [lin] at h
  | succ f =>
    obtain ⟨ls, m, hls, hm, rfl⟩ := lin_succ.1 h
    refine ⟨ls, m, ?_, hm, rfl⟩
    clear hm h
    generalize g.bases c = bc at hls
    induction bc generalizing ls with
    | nil => cases ls with
      | nil => exact .nil
      | cons => cases hls
    | cons b bs ih => cases ls with
      | nil => cases hls
      | cons l ls =>
        simp only [List.map_cons, List.cons.injEq] at hls
        exact .cons ⟨f, hls.1⟩ (ih _ hls.2)

/-! ### Laid out classes -/

variable {g : Classes} {nodes : Dict Str Nat} {specs links : Nat → List Nat}

theorem Laid.closed (h : Laid g nodes specs links) : Closed g := by
  intro c hc b hb
  by_cases h0 : c = 0
  · subst h0; rw [h.root] at hb; cases hb
  · by_cases hn : ∃ p, (p, c) ∈ nodes
    · obtain ⟨p, hp⟩ := hn
      rw [(h.comp p c hp).2.2] at hb
      rcases List.mem_append.1 hb with hb | hb
      · exact (h.spec p c hp b hb).2.1
      · obtain ⟨q, hq⟩ := h.link p c hp b hb
        exact (h.comp q b hq).2.1
    · rw [h.others c hc h0 fun q hq => hn ⟨q, hq⟩] at hb
      rw [List.mem_singleton.1 hb]
      exact h.pos

theorem Laid.mro_iff (h : Laid g nodes specs links) {c : Nat} (hc : c < g.size) {l : List Nat} :
    g.mro c = some l ↔ Lin g c l :=
  ⟨fun hm => ⟨_, hm⟩, fun ⟨_, hm⟩ => mro_of_lin (Laid.closed h) hc hm⟩

theorem Laid.lin_root (h : Laid g nodes specs links) : Lin g 0 [0] :=
  Lin.of_bases (ls := []) (m := []) (by rw [h.root]; exact .nil) (by rw [h.root]; rfl)

theorem Laid.lin_other (h : Laid g nodes specs links) {s : Nat} (hb : g.bases s = [0]) : Lin g s [s, 0] :=
  Lin.of_bases (ls := [[0]]) (by rw [hb]; exact .cons (Laid.lin_root h) .nil) (by rw [hb]; rfl)

theorem Laid.zero_mem (h : Laid g nodes specs links) {c : Nat} {l : List Nat} (hl : Lin g c l) :
    c < g.size → 0 ∈ l := by
  refine Lin.induct (P := fun c l => c < g.size → 0 ∈ l) ?_ hl
  intro c l hl hb _ hc
  by_cases h0 : c = 0
  · subst h0; exact hl.self
  · have : ∃ b, b ∈ g.bases c := by
      by_cases hn : ∃ p, (p, c) ∈ nodes
      · obtain ⟨p, hp⟩ := hn
        rw [(h.comp p c hp).2.2]
        cases hs : specs c with
        | nil => exact absurd hs (h.nonempty p c hp)
        | cons s t => exact ⟨s, by simp⟩
      · rw [h.others c hc h0 fun q hq => hn ⟨q, hq⟩]; exact ⟨0, by simp⟩
    obtain ⟨b, hbm⟩ := this
    obtain ⟨lb, h1, h2⟩ := hb b hbm
    obtain ⟨lb', m, h1', rfl, h3⟩ := hl.base hbm
    rw [h1.det h1'] at h2
    exact List.mem_cons_of_mem _ (h3.subset (h2 (Laid.closed h c hc b hbm)))

/-- A spec class is only below its node. -/
theorem Laid.owner (h : Laid g nodes specs links) {p : Str} {c s : Nat} (hc : (p, c) ∈ nodes) (hs : s ∈ specs c)
    {d : Nat} {l : List Nat} (hl : Lin g d l) : d < g.size → d ≠ s → s ∈ l → c ∈ l := by
  have hs' := h.spec p c hc s hs
  refine Lin.induct (P := fun d l => d < g.size → d ≠ s → s ∈ l → c ∈ l) ?_ hl
  intro d l hl hb hx hd hne hsl
  rcases hx s hsl with rfl | ⟨b, hbm, lb, hlb, hsb⟩
  · exact absurd rfl hne
  · obtain ⟨lb', h1, h2⟩ := hb b hbm
    obtain rfl := hlb.det h1
    obtain ⟨lb', m, h3, rfl, h4⟩ := hl.base hbm
    obtain rfl := hlb.det h3
    by_cases hbs : b = s
    · subst hbs
      by_cases h0 : d = 0
      · subst h0; rw [h.root] at hbm; cases hbm
      · by_cases hn : ∃ q, (q, d) ∈ nodes
        · obtain ⟨q, hq⟩ := hn
          rw [(h.comp q d hq).2.2] at hbm
          rcases List.mem_append.1 hbm with hbm | hbm
          · rw [h.disjoint p c q d hc hq b hs hbm]; exact List.mem_cons_self
          · obtain ⟨r, hr⟩ := h.link q d hq b hbm
            exact absurd hr (hs'.2.2.2 r)
        · rw [h.others d hd h0 fun q hq => hn ⟨q, hq⟩] at hbm
          have := List.mem_singleton.1 hbm
          omega
    · exact List.mem_cons_of_mem _ (h4.subset (h2 (Laid.closed h d hd b hbm) hbs hsb))

/-- The order of a composite node: itself, its specs, then the merge of what its links give. -/
theorem Laid.lin_comp (h : Laid g nodes specs links) {p : Str} {c : Nat} (hc : (p, c) ∈ nodes)
    {ls : List (List Nat)} (hl : Each (Lin g) (links c) ls) (hn : ∀ l ∈ ls, c ∉ l) {m : List Nat}
    (hm : merge (List.replicate (specs c).length [0] ++ ls ++ [links c]) = some m) :
    Lin g c (c :: (specs c ++ m)) := by
  have hb := (h.comp p c hc).2.2
  have hs := h.spec p c hc
  have hspec : Each (Lin g) (specs c) ((specs c).map (fun s => [s, 0])) := by
    have : ∀ l : List Nat, (∀ s ∈ l, s ∈ specs c) → Each (Lin g) l (l.map (fun s => [s, 0])) := by
      intro l
      induction l with
      | nil => intro _; exact .nil
      | cons s l ih =>
        intro hl
        exact .cons (Laid.lin_other h (hs s (hl s List.mem_cons_self)).2.2.1)
          (ih fun t ht => hl t (List.mem_cons_of_mem _ ht))
    exact this _ fun _ h => h
  refine Lin.of_bases (ls := (specs c).map (fun s => [s, 0]) ++ ls) ?_ ?_
  · rw [hb]
    exact hspec.append hl
  · rw [hb]
    have := merge_specs (specs c) 0 ls (links c) (h.nodup p c hc) (fun h0 => by have := (hs 0 h0).1; omega) ?_
    · simp only [List.replicate_zero, List.nil_append, Nat.zero_add] at this
      rw [this, hm]; rfl
    · intro s hsc
      refine ⟨fun hsl => ?_, fun l hlm hsl => ?_⟩
      · obtain ⟨q, hq⟩ := h.link p c hc s hsl
        exact (hs s hsc).2.2.2 q hq
      · obtain ⟨b, hbm, hlb⟩ := hl.mem_right hlm
        obtain ⟨q, hq⟩ := h.link p c hc b hbm
        refine hn l hlm (Laid.owner h hc hsc hlb (h.comp q b hq).2.1 ?_ hsl)
        rintro rfl
        exact (hs b hsc).2.2.2 q hq

/-- A node without links. -/
theorem Laid.lin_none (h : Laid g nodes specs links) {p : Str} {c : Nat} (hc : (p, c) ∈ nodes)
    (hl : links c = []) : Lin g c (c :: (specs c ++ [0])) := by
  refine Laid.lin_comp h hc (ls := []) (by rw [hl]; exact .nil) (fun _ h => nomatch h) ?_
  rw [hl]
  refine merge_of_sublists [0] _ ?_ ?_ (by simp)
  · have := List.length_pos_iff.2 (h.nonempty p c hc)
    simp only [List.append_nil, List.mem_append, List.mem_replicate]
    exact Or.inl ⟨by omega, trivial⟩
  · intro l hl
    simp only [List.append_nil, List.mem_append, List.mem_replicate, List.mem_singleton] at hl
    rcases hl with ⟨_, rfl⟩ | rfl
    · exact List.Sublist.refl _
    · simp

/-- A node with one link. -/
theorem Laid.lin_one (h : Laid g nodes specs links) {p : Str} {c b : Nat} (hc : (p, c) ∈ nodes)
    (hl : links c = [b]) {lb : List Nat} (hb : Lin g b lb) (hn : c ∉ lb) : Lin g c (c :: (specs c ++ lb)) := by
  obtain ⟨q, hq⟩ := h.link p c hc b (by rw [hl]; simp)
  refine Laid.lin_comp h hc (ls := [lb]) (by rw [hl]; exact .cons hb .nil) (by simpa using hn) ?_
  rw [hl]
  refine merge_of_sublists lb _ (by simp) ?_ hb.nodup
  intro l hl
  simp only [List.append_assoc, List.mem_append, List.mem_replicate, List.mem_singleton] at hl
  rcases hl with ⟨_, rfl⟩ | rfl | rfl
  · exact List.singleton_sublist.2 (Laid.zero_mem h hb (h.comp q b hq).2.1)
  · exact List.Sublist.refl _
  · exact List.singleton_sublist.2 hb.self

/-- The attribute of a composite node: its own tables first. -/
theorem attr?_of_lin (h : Laid g nodes specs links) {p : Str} {c : Nat} (hc : (p, c) ∈ nodes) {m : List Nat}
    (hl : Lin g c (c :: (specs c ++ m))) (k : Str) :
    g.attr? c k = (firstTable k (tablesOf g specs c)).or (m.findSome? (fun d => get? k (g.own d))) := by
  unfold Classes.attr?
  rw [(Laid.mro_iff h (h.comp p c hc).2.1).2 hl, Option.bind_some, List.findSome?_cons, List.findSome?_append]
  unfold firstTable tablesOf
  rw [List.findSome?_cons, List.findSome?_map]
  cases get? k (g.own c) <;> simp [Function.comp_def]

/-! ### Changing bases -/

/-- The classes with the bases of one changed. -/
def withBases (g : Classes) (c : Nat) (bs : List Nat) : Classes :=
  { g with bases := fun d => if d = c then bs else g.bases d }

theorem setBases_eq {g g' : Classes} {c : Nat} {bs : List Nat} : g.setBases c bs = some g' ↔
    g' = withBases g c bs ∧ ∀ d < g.size, ((withBases g c bs).mro d).isSome := by
  unfold Classes.setBases
  simp only
  constructor
  · intro h
    split at h
    · cases h; exact ⟨rfl, ‹_›⟩
    · cases h
  · rintro ⟨rfl, h⟩
    rw [if_pos]
    · rfl
    · exact h

theorem Laid.withBases (h : Laid g nodes specs links) {p : Str} {c : Nat} (hc : (p, c) ∈ nodes) {new : List Nat}
    (hn : ∀ b ∈ new, ∃ q, (q, b) ∈ nodes) :
    Laid (withBases g c (specs c ++ new)) nodes specs (fun d => if d = c then new else links d) where
  ok := h.ok
  inj := h.inj
  root := by
    have := (h.comp p c hc).1
    simp only [Inherit.withBases]
    rw [if_neg (by omega)]; exact h.root
  pos := h.pos
  comp := by
    intro q d hd
    refine ⟨(h.comp q d hd).1, (h.comp q d hd).2.1, ?_⟩
    simp only [Inherit.withBases]
    by_cases hdc : d = c
    · subst hdc; simp
    · rw [if_neg hdc, if_neg hdc]; exact (h.comp q d hd).2.2
  link := by
    intro q d hd b hb
    split at hb
    · exact hn b hb
    · exact h.link q d hd b hb
  spec := by
    intro q d hd s hs
    have h1 := h.spec q d hd s hs
    refine ⟨h1.1, h1.2.1, ?_, h1.2.2.2⟩
    simp only [Inherit.withBases]
    rw [if_neg (by rintro rfl; exact h1.2.2.2 p hc)]
    exact h1.2.2.1
  nonempty := h.nonempty
  nodup := h.nodup
  disjoint := h.disjoint
  others := by
    intro s hs h0 hq
    simp only [Inherit.withBases]
    rw [if_neg (by rintro rfl; exact hq p hc)]
    exact h.others s hs h0 hq

/-! ### Lineages -/

theorem lineage_nil : lineage [] = [[]] := rfl

theorem lineage_snoc (ns : List Str) (n : Str) : lineage (ns ++ [n]) = (ns ++ [n]) :: lineage ns := by
  simp [lineage, lineageRev]

theorem mem_lineage_length {ns q : List Str} (h : q ∈ lineage ns) : q.length ≤ ns.length := by
  revert h
  refine Legacy.snocInduct (P := fun ns => q ∈ lineage ns → q.length ≤ ns.length) ?_ ?_ ns
  · intro h; rw [lineage_nil, List.mem_singleton] at h; simp [h]
  · intro ns n ih h
    rw [lineage_snoc] at h
    rcases List.mem_cons.1 h with rfl | h
    · exact Nat.le_refl _
    · have := ih h; simp; omega

theorem nearestAbove_snoc (nodes : Dict Str Nat) (ns : List Str) (n : Str) :
    nearestAbove nodes (ns ++ [n]) = (lineage ns).findSome? (fun q => get? (render q) nodes) := by
  cases ns with
  | nil => rfl
  | cons m ns =>
    simp only [List.cons_append, nearestAbove]
    rw [← List.cons_append, List.dropLast_concat]

theorem lineage_head (ns : List Str) : ∃ t, lineage ns = ns :: t := by
  refine Legacy.snocInduct (P := fun ns => ∃ t, lineage ns = ns :: t) ⟨[], rfl⟩ ?_ ns
  intro ns n _
  exact ⟨_, lineage_snoc ns n⟩

theorem length_le_slashed (ns : List Str) : ns.length ≤ (slashed ns).length := by
  induction ns with
  | nil => simp
  | cons n ns ih => simp only [slashed, List.length_cons, List.length_append]; omega

theorem length_le_render (ns : List Str) : ns.length ≤ (render ns).length := by
  by_cases h : ns = []
  · subst h; simp
  · rw [Path.render_ne_nil h]; exact length_le_slashed ns

theorem climb_spec (nodes : Dict Str Nat) (ns : List Str) : Names ns → ∀ f, ns.length < f →
    get? (render ns) nodes = none →
    get? (climb nodes f (render ns)) nodes = (lineage ns).findSome? (fun q => get? (render q) nodes) := by
  refine Legacy.snocInduct (P := fun ns => Names ns → ∀ f, ns.length < f → get? (render ns) nodes = none →
    get? (climb nodes f (render ns)) nodes = (lineage ns).findSome? (fun q => get? (render q) nodes)) ?_ ?_ ns
  · intro _ f hf hn
    cases f with
    | zero => omega
    | succ f =>
      simp only [climb]
      rw [if_pos ((Path.render_eq_world Path.names_nil).2 rfl), hn]
      simp [lineage_nil, hn]
  · intro ns n ih hN f hf hn
    cases f with
    | zero => omega
    | succ f =>
      have hN' := (Path.names_append.1 hN).1
      simp only [climb]
      rw [if_neg (by rw [Path.render_eq_world hN]; simp), Path.parentPath_render_snoc hN, lineage_snoc,
        List.findSome?_cons, hn]
      simp only
      cases hg : get? (render ns) nodes with
      | some b =>
        rw [if_pos (show (some b).isSome = true from rfl), hg]
        obtain ⟨t, ht⟩ := lineage_head ns
        rw [ht, List.findSome?_cons, hg]
      | none =>
        rw [if_neg (by simp)]
        exact ih hN' f (by simp at hf; omega) hg

/-- The base found for the parent arc is the nearest node above. -/
theorem parentBasePath_spec (nodes : Dict Str Nat) (ns : List Str) (hN : Names ns) :
    get? (parentBasePath nodes (render ns)) nodes = (lineage ns).findSome? (fun q => get? (render q) nodes) := by
  unfold parentBasePath
  cases hg : get? (render ns) nodes with
  | some b =>
    rw [if_pos (show (some b).isSome = true from rfl), hg]
    obtain ⟨t, ht⟩ := lineage_head ns
    rw [ht, List.findSome?_cons, hg]
  | none =>
    rw [if_neg (by simp)]
    exact climb_spec nodes ns hN _ (by have := length_le_render ns; omega) hg

/-! ### The parent arc -/

/-- Every node has a path made of names. -/
def Pathed (nodes : Dict Str Nat) : Prop := ∀ p c, (p, c) ∈ nodes → ∃ ns, Names ns ∧ p = render ns

theorem nearestAbove_mem {ns : List Str} (hN : Names ns) {b : Nat} (h : nearestAbove nodes ns = some b) :
    ∃ q, Names q ∧ q.length < ns.length ∧ (render q, b) ∈ nodes ∧
      nearestAbove nodes ns = (lineage q).findSome? (fun q => get? (render q) nodes) := by
  rcases Path.eq_nil_or_snoc ns with rfl | ⟨ns, n, rfl⟩
  · simp [nearestAbove] at h
  · rw [nearestAbove_snoc] at h ⊢
    have hN := (Path.names_append.1 hN).1
    revert h hN
    refine Legacy.snocInduct (P := fun ns => (lineage ns).findSome? (fun q => get? (render q) nodes) = some b →
      Names ns → ∃ q, Names q ∧ q.length < (ns ++ [n]).length ∧ (render q, b) ∈ nodes ∧
        (lineage ns).findSome? (fun q => get? (render q) nodes) =
          (lineage q).findSome? (fun q => get? (render q) nodes)) ?_ ?_ ns
    · intro h hN
      rw [lineage_nil] at h
      refine ⟨[], hN, by simp, mem_of_get? ?_, rfl⟩
      simpa using h
    · intro ns m ih h hN
      rw [lineage_snoc, List.findSome?_cons] at h ⊢
      cases hg : get? (render (ns ++ [m])) nodes with
      | some b' =>
        rw [hg] at h
        cases h
        refine ⟨ns ++ [m], hN, by simp, mem_of_get? hg, ?_⟩
        rw [lineage_snoc, List.findSome?_cons, hg]
      | none =>
        rw [hg] at h
        obtain ⟨q, h1, h2, h3, h4⟩ := ih h (Path.names_append.1 hN).1
        refine ⟨q, h1, ?_, h3, h4⟩
        simp only [List.length_append, List.length_singleton] at h2 ⊢
        omega

/-- Links are missing or lead to the nearest node above: every node has an order, made of its tables and
those of nodes above. -/
theorem Laid.lin_parents (h : Laid g nodes specs links)
    (hl : ∀ ns c, Names ns → (render ns, c) ∈ nodes → links c = [] ∨ links c = (nearestAbove nodes ns).toList)
    (N : Nat) : ∀ ns c, ns.length < N → Names ns → (render ns, c) ∈ nodes →
      ∃ l, Lin g c l ∧ ∀ q d, Names q → (render q, d) ∈ nodes → d ∈ l → q.length ≤ ns.length := by
  induction N with
  | zero => intro ns c hlt; omega
  | succ N ih =>
    intro ns c hlt hN hc
    have hspec : ∀ q d, (render q, d) ∈ nodes → d ∉ specs c := fun q d hd hs => (h.spec _ c hc d hs).2.2.2 _ hd
    have hself : ∀ q d, Names q → (render q, d) ∈ nodes → d = c → q.length ≤ ns.length := by
      rintro q d hq hd rfl
      rw [Path.render_inj hq hN (h.inj _ _ _ hd hc)]
      exact Nat.le_refl _
    have hzero : ∀ q d, (render q, d) ∈ nodes → d ≠ 0 := fun q d hd => by have := (h.comp _ d hd).1; omega
    by_cases he : links c = []
    · refine ⟨_, Laid.lin_none h hc he, fun q d hq hd hm => ?_⟩
      simp only [List.mem_cons, List.mem_append, List.not_mem_nil, or_false] at hm
      rcases hm with hm | hm | hm
      · exact hself q d hq hd hm
      · exact absurd hm (hspec q d hd)
      · exact absurd hm (hzero q d hd)
    · rcases hl ns c hN hc with hl' | hl'
      · exact absurd hl' he
      · cases hn : nearestAbove nodes ns with
        | none => rw [hn] at hl'; exact absurd hl' he
        | some b =>
          rw [hn] at hl'
          obtain ⟨q, hq, hqn, hqb, _⟩ := nearestAbove_mem hN hn
          obtain ⟨lb, hlb, hmem⟩ := ih q b (by omega) hq hqb
          refine ⟨_, Laid.lin_one h hc hl' hlb ?_, fun q' d hq' hd hm => ?_⟩
          · intro hcb
            have := hmem ns c hN hc hcb
            omega
          · simp only [List.mem_cons, List.mem_append] at hm
            rcases hm with hm | hm | hm
            · exact hself q' d hq' hd hm
            · exact absurd hm (hspec q' d hd)
            · have := hmem q' d hq' hd hm
              omega

theorem Laid.all_lin (h : Laid g nodes specs links) (hp : ∀ p c, (p, c) ∈ nodes → ∃ l, Lin g c l) :
    ∀ d < g.size, (g.mro d).isSome := by
  intro d hd
  have : ∃ l, Lin g d l := by
    by_cases h0 : d = 0
    · subst h0; exact ⟨_, Laid.lin_root h⟩
    · by_cases hn : ∃ p, (p, d) ∈ nodes
      · obtain ⟨p, hpd⟩ := hn; exact hp p d hpd
      · exact ⟨_, Laid.lin_other h (h.others d hd h0 fun q hq => hn ⟨q, hq⟩)⟩
  obtain ⟨l, hl⟩ := this
  rw [(Laid.mro_iff h hd).2 hl]; rfl

/-- What holds while the parent arc is composed: the nodes in `done` have their link. -/
def ParentsDone (g0 : Classes) (nodes : Dict Str Nat) (specs : Nat → List Nat) (done : List (Str × Nat))
    (g : Classes) : Prop :=
  g.own = g0.own ∧ g.size = g0.size ∧ ∃ links, Laid g nodes specs links ∧
    ∀ ns c, Names ns → (render ns, c) ∈ nodes →
      links c = if (render ns, c) ∈ done then (nearestAbove nodes ns).toList else []

theorem parentArc_step {g0 : Classes} {done : List (Str × Nat)} (hp : Pathed nodes)
    (hpar : ∀ ns c, Names ns → (render ns, c) ∈ nodes →
      firstTable A_PARENT (tablesOf g0 specs c) = some (.str (parentText ns)))
    (hd : ParentsDone g0 nodes specs done g) {pc : Str × Nat} (hm : pc ∈ nodes) (hn : pc ∉ done) :
    ∃ g', parentArc nodes g pc = some g' ∧ ParentsDone g0 nodes specs (done ++ [pc]) g' := by
  obtain ⟨hown, hsize, links, h, hl⟩ := hd
  obtain ⟨p, c⟩ := pc
  obtain ⟨ns, hN, rfl⟩ := hp p c hm
  have hlc : links c = [] := by rw [hl ns c hN hm, if_neg hn]
  have hattr : g.attr c A_PARENT = .str (parentText ns) := by
    unfold Classes.attr
    rw [attr?_of_lin h hm (Laid.lin_none h hm hlc)]
    have : tablesOf g specs c = tablesOf g0 specs c := by unfold tablesOf; rw [hown]
    rw [this, hpar ns c hN hm]; rfl
  have hsame : nearestAbove nodes ns = none → ∃ g', some g = some g' ∧
      ParentsDone g0 nodes specs (done ++ [(render ns, c)]) g' := by
    intro hnone
    refine ⟨g, rfl, hown, hsize, links, h, fun ns' c' hN' hc' => ?_⟩
    rw [hl ns' c' hN' hc']
    by_cases he : (render ns', c') = (render ns, c)
    · rw [if_neg (by rw [he]; exact hn), if_pos (by rw [he]; simp)]
      cases he' : Path.render_inj hN' hN (Prod.mk.inj he).1
      rw [hnone]; rfl
    · simp only [List.mem_append, List.mem_singleton, he, or_false]
  simp only [parentArc]
  rw [hattr]
  simp only
  rcases Path.eq_nil_or_snoc ns with rfl | ⟨ms, n, rfl⟩
  · rw [if_pos (show parentText [] = [] from rfl)]
    exact hsame rfl
  · have hNm := (Path.names_append.1 hN).1
    have hpt : parentText (ms ++ [n]) = render ms := by simp [parentText]
    have hne : render ms ≠ [] := by
      by_cases hms : ms = []
      · subst hms; simp [render]
      · rw [Path.render_ne_nil hms]
        cases ms with
        | nil => exact absurd rfl hms
        | cons a b => simp [slashed]
    rw [hpt, if_neg hne, parentBasePath_spec nodes ms hNm, ← nearestAbove_snoc nodes ms n]
    cases hnear : nearestAbove nodes (ms ++ [n]) with
    | none => exact hsame hnear
    | some b =>
      simp only
      obtain ⟨q, hq, hqn, hqb, _⟩ := nearestAbove_mem hN hnear
      have hL := Laid.withBases h hm (new := [b]) (fun b' hb' => by
        rw [List.mem_singleton.1 hb']; exact ⟨_, hqb⟩)
      have hlinks : ∀ ns' c', Names ns' → (render ns', c') ∈ nodes →
          (if c' = c then [b] else links c') =
            if (render ns', c') ∈ done ++ [(render (ms ++ [n]), c)] then (nearestAbove nodes ns').toList else [] := by
        intro ns' c' hN' hc'
        by_cases hcc : c' = c
        · subst hcc
          have := Path.render_inj hN' hN (h.inj _ _ _ hc' hm)
          subst this
          rw [if_pos rfl, if_pos (by simp), hnear]; rfl
        · rw [if_neg hcc, hl ns' c' hN' hc']
          have : (render ns', c') ≠ (render (ms ++ [n]), c) := fun he => hcc (Prod.mk.inj he).2
          simp only [List.mem_append, List.mem_singleton, this, or_false]
      refine ⟨withBases g c (specs c ++ [b]), ?_, hown, hsize, _, hL, hlinks⟩
      unfold Classes.addBase
      rw [(h.comp _ c hm).2.2, hlc, List.append_nil]
      refine setBases_eq.2 ⟨rfl, Laid.all_lin hL fun p' c' hc' => ?_⟩
      obtain ⟨ns', hN', rfl⟩ := hp p' c' hc'
      obtain ⟨l, hl', _⟩ := Laid.lin_parents hL (fun ns'' c'' hN'' hc'' => by
        rw [hlinks ns'' c'' hN'' hc'']
        split
        · exact Or.inr rfl
        · exact Or.inl rfl) (ns'.length + 1) ns' c' (by omega) hN' hc'
      exact ⟨l, hl'⟩

theorem parents_fold {g0 : Classes} (hp : Pathed nodes)
    (hpar : ∀ ns c, Names ns → (render ns, c) ∈ nodes →
      firstTable A_PARENT (tablesOf g0 specs c) = some (.str (parentText ns))) :
    ∀ (order done : List (Str × Nat)) (g : Classes), (∀ x ∈ order, x ∈ nodes) → (done ++ order).Nodup →
      ParentsDone g0 nodes specs done g →
      ∃ g', order.foldlM (parentArc nodes) g = some g' ∧ ParentsDone g0 nodes specs (done ++ order) g' := by
  intro order
  induction order with
  | nil => intro done g _ _ hd; exact ⟨g, rfl, by simpa using hd⟩
  | cons pc order ih =>
    intro done g hm hn hd
    obtain ⟨g1, h1, h2⟩ := parentArc_step hp hpar hd (hm pc List.mem_cons_self) (by
      intro hpc
      exact (List.nodup_append.1 hn).2.2 pc hpc pc List.mem_cons_self rfl)
    have e : done ++ pc :: order = done ++ [pc] ++ order := by simp
    rw [e] at hn
    obtain ⟨g', h3, h4⟩ := ih (done ++ [pc]) g1 (fun x hx => hm x (List.mem_cons_of_mem _ hx)) hn h2
    refine ⟨g', ?_, by rw [e]; exact h4⟩
    rw [List.foldlM_cons, h1]
    exact h3

end Nxt.Inherit
