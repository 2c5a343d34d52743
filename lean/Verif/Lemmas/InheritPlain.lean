import Verif.Lemmas.InheritInst
/-!
# Lemmas for compositions whose instance sources are plain
-/
namespace Nxt.Inherit
open Dict NodeData Mro Spec

/-! ### Lists with a common order -/

theorem exists_first {α : Type} [DecidableEq α] (L : List α) : ∀ (ls : List (List α)), L.Nodup →
    (∀ l ∈ ls, List.Sublist l L) → (¬ ∀ l ∈ ls, l = []) →
    ∃ x, (∃ l ∈ ls, l.head? = some x) ∧ ∀ l ∈ ls, x ∉ l.tail := by
  induction L with
  | nil => intro ls _ hs he; exact absurd (fun l hl => List.sublist_nil.1 (hs l hl)) he
  | cons y t ih =>
    intro ls hn hs he
    have hy := (List.nodup_cons.1 hn).1
    have hhead : ∀ l ∈ ls, y ∈ l → l.head? = some y ∧ y ∉ l.tail := by
      intro l hl hyl
      have := hs l hl
      cases l with
      | nil => cases hyl
      | cons z u =>
        cases this with
        | cons _ h => exact absurd (h.subset hyl) hy
        | cons_cons _ h => exact ⟨rfl, fun hm => hy (h.subset hm)⟩
    by_cases hex : ∃ l ∈ ls, y ∈ l
    · obtain ⟨l, hl, hyl⟩ := hex
      refine ⟨y, ⟨l, hl, (hhead l hl hyl).1⟩, fun m hm hym => ?_⟩
      exact (hhead m hm (List.mem_of_mem_tail hym)).2 hym
    · refine ih ls (List.nodup_cons.1 hn).2 (fun l hl => ?_) he
      have := hs l hl
      cases this with
      | cons _ h => exact h
      | cons_cons _ h => exact absurd ⟨_, hl, List.mem_cons_self⟩ hex

/-- Lists which keep one common order can be merged. -/
theorem merge_common {α : Type} [DecidableEq α] (L : List α) (hn : L.Nodup) : ∀ (n : Nat) (ls : List (List α)),
    (ls.map List.length).sum ≤ n → (∀ l ∈ ls, List.Sublist l L) → ∃ r, merge ls = some r := by
  intro n
  induction n with
  | zero =>
    intro ls hle _
    by_cases he : ∀ l ∈ ls, l = []
    · exact ⟨[], merge_nil he⟩
    · have := sum_pos he
      omega
  | succ n ih =>
    intro ls hle hs
    by_cases he : ∀ l ∈ ls, l = []
    · exact ⟨[], merge_nil he⟩
    · obtain ⟨x, ⟨l, hl, hx⟩, htail⟩ := exists_first L ls hn hs he
      cases hp : pick ls ls with
      | none =>
        obtain ⟨m, hm, hxm⟩ := pick_none hp l hl x hx
        exact absurd hxm (htail m hm)
      | some h =>
        have h1 := pick_some hp
        have h2 := sum_strip h1.1
        obtain ⟨r, hr⟩ := ih (ls.map (strip h)) (by omega) (by
          intro m hm
          obtain ⟨m', hm', rfl⟩ := List.mem_map.1 hm
          refine List.Sublist.trans ?_ (hs m' hm')
          unfold strip
          split
          · exact List.tail_sublist _
          · exact List.Sublist.refl _)
        exact ⟨h :: r, by rw [merge_step hp, hr]; rfl⟩

variable {g : Classes} {nodes : Dict Str Nat} {specs links : Nat → List Nat}

/-- A node and those above it. -/
inductive Up (nodes : Dict Str Nat) : Nat → Nat → Prop
  | self (c : Nat) : Up nodes c c
  | step {ns : List Str} {c a x : Nat} : Names ns → (render ns, c) ∈ nodes → nearestAbove nodes ns = some a →
      Up nodes a x → Up nodes c x

/-- How the nodes are linked while instances of plain nodes are added. -/
structure PlainLinks (nodes : Dict Str Nat) (inst : Nat → Option Nat) (P : Nat → Prop) (links : Nat → List Nat) :
    Prop where
  none : ∀ c, P c → inst c = none
  up : ∀ ns c a, Names ns → (render ns, c) ∈ nodes → P c → nearestAbove nodes ns = some a → P a
  source : ∀ p c b, (p, c) ∈ nodes → inst c = some b → P b ∧ ∃ q, (q, b) ∈ nodes
  links : ∀ ns c, Names ns → (render ns, c) ∈ nodes → links c = (nearestAbove nodes ns).toList ∨
    ∃ b, inst c = some b ∧ (links c = [] ∨ links c = [b] ∨ ∃ a, nearestAbove nodes ns = some a ∧ links c = [a, b] ∧ ¬ Up nodes b a)

/-- The order of a plain node: the nodes above it, one after the other. -/
theorem Laid.lin_plain (h : Laid g nodes specs links) {inst : Nat → Option Nat} {P : Nat → Prop}
    (hl : PlainLinks nodes inst P links) (N : Nat) : ∀ ns c, ns.length < N → Names ns → (render ns, c) ∈ nodes → P c →
      ∃ rest, Lin g c (c :: (specs c ++ rest)) ∧
        (rest = [0] ∨ ∃ q a, Names q ∧ q.length < ns.length ∧ (render q, a) ∈ nodes ∧ P a ∧ Lin g a rest) ∧
        (∀ q d, Names q → (render q, d) ∈ nodes → d ∈ c :: (specs c ++ rest) → P d ∧ q.length ≤ ns.length) ∧
        ∀ p d, (p, d) ∈ nodes → (d ∈ c :: (specs c ++ rest) ↔ Up nodes c d) := by
  induction N with
  | zero => intro ns c hlt; omega
  | succ N ih =>
    intro ns c hlt hN hc hP
    have hspec : ∀ q d, (q, d) ∈ nodes → d ∉ specs c := fun q d hd hs => (h.spec _ c hc d hs).2.2.2 _ hd
    have hzero : ∀ q d, (q, d) ∈ nodes → d ≠ 0 := fun q d hd => by have := (h.comp _ d hd).1; omega
    have hself : ∀ q d, Names q → (render q, d) ∈ nodes → d = c → q.length ≤ ns.length := by
      rintro q d hq hd rfl
      rw [Path.render_inj hq hN (h.inj _ _ _ hd hc)]
      exact Nat.le_refl _
    have hlc : links c = (nearestAbove nodes ns).toList := by
      rcases hl.links ns c hN hc with h1 | ⟨b, h1, _⟩
      · exact h1
      · rw [hl.none c hP] at h1; cases h1
    have hup : ∀ d, Up nodes c d → d = c ∨ ∃ a, nearestAbove nodes ns = some a ∧ Up nodes a d := by
      intro d hd
      cases hd with
      | self => exact Or.inl rfl
      | @step ms _ a _ h1 h2 h3 h4 =>
        have : ms = ns := Path.render_inj h1 hN (h.inj _ _ _ h2 hc)
        subst this
        exact Or.inr ⟨a, h3, h4⟩
    cases hn : nearestAbove nodes ns with
    | none =>
      rw [hn] at hlc
      refine ⟨[0], Laid.lin_none h hc hlc, Or.inl rfl, fun q d hq hd hm => ?_, fun p d hd => ⟨fun hm => ?_, fun hu => ?_⟩⟩
      · simp only [List.mem_cons, List.mem_append, List.not_mem_nil, or_false] at hm
        rcases hm with rfl | hm | hm
        · exact ⟨hP, hself q d hq hd rfl⟩
        · exact absurd hm (hspec _ d hd)
        · exact absurd hm (hzero _ d hd)
      · simp only [List.mem_cons, List.mem_append, List.not_mem_nil, or_false] at hm
        rcases hm with rfl | hm | hm
        · exact .self _
        · exact absurd hm (hspec _ d hd)
        · exact absurd hm (hzero _ d hd)
      · rcases hup d hu with rfl | ⟨a, ha, _⟩
        · exact List.mem_cons_self
        · rw [hn] at ha; cases ha
    | some a =>
      rw [hn] at hlc
      obtain ⟨q, hq, hqn, hqa, _⟩ := nearestAbove_mem hN hn
      have hPa := hl.up ns c a hN hc hP hn
      obtain ⟨rest, h1, _, h3, h4⟩ := ih q a (by omega) hq hqa hPa
      have hca : c ∉ a :: (specs a ++ rest) := by
        intro hm
        have := (h3 ns c hN hc hm).2
        omega
      refine ⟨_, Laid.lin_one h hc hlc h1 hca, Or.inr ⟨q, a, hq, hqn, hqa, hPa, h1⟩, fun r d hr hd hm => ?_,
        fun p d hd => ⟨fun hm => ?_, fun hu => ?_⟩⟩
      · rcases List.mem_cons.1 hm with rfl | hm
        · exact ⟨hP, hself r d hr hd rfl⟩
        · rcases List.mem_append.1 hm with hm | hm
          · exact absurd hm (hspec _ d hd)
          · have := h3 r d hr hd hm
            exact ⟨this.1, by omega⟩
      · rcases List.mem_cons.1 hm with rfl | hm
        · exact .self _
        · rcases List.mem_append.1 hm with hm | hm
          · exact absurd hm (hspec _ d hd)
          · exact .step hN hc hn ((h4 p d hd).1 hm)
      · rcases hup d hu with rfl | ⟨a', ha', hu'⟩
        · exact List.mem_cons_self
        · rw [hn] at ha'; cases ha'
          exact List.mem_cons_of_mem _ (List.mem_append_right _ ((h4 p d hd).2 hu'))

/-- What the order of a plain node shares with any other order is its end, and lies there in sequence. -/
theorem Laid.plain_end (h : Laid g nodes specs links) {inst : Nat → Option Nat} {P : Nat → Prop}
    (hl : PlainLinks nodes inst P links) {r : Str} {x : Nat} (hx : (r, x) ∈ nodes) {la : List Nat} (hla : Lin g x la)
    (N : Nat) : ∀ ns b lb, ns.length < N → Names ns → (render ns, b) ∈ nodes → P b → Lin g b lb →
      ∃ pre y t, lb = pre ++ y :: t ∧ List.Sublist (y :: t) la ∧ ∀ z ∈ pre, z ∉ la := by
  induction N with
  | zero => intro ns c lb hlt; omega
  | succ N ih =>
    intro ns b lb hlt hN hb hP hlb
    obtain ⟨rest, h1, h2, _, _⟩ := Laid.lin_plain h hl (ns.length + 1) ns b (by omega) hN hb hP
    obtain rfl := hlb.det h1
    by_cases hba : b ∈ la
    · obtain ⟨lb', h3, h4⟩ := hla.mem hba
      rw [← hlb.det h3] at h4
      exact ⟨[], b, _, rfl, h4, fun _ h => nomatch h⟩
    · have hs : ∀ s ∈ specs b, s ∉ la := by
        intro s hs hsl
        refine hba (Laid.owner h hb hs hla (h.comp r x hx).2.1 ?_ hsl)
        rintro rfl
        exact (h.spec _ b hb x hs).2.2.2 r hx
      rcases h2 with rfl | ⟨q, a, hq, hqn, hqa, hPa, hrest⟩
      · refine ⟨b :: specs b, 0, [], by simp, ?_, ?_⟩
        · exact List.singleton_sublist.2 (Laid.zero_mem h hla (h.comp r x hx).2.1)
        · intro z hz
          rcases List.mem_cons.1 hz with rfl | hz
          · exact hba
          · exact hs z hz
      · obtain ⟨pre, y, t, h3, h4, h5⟩ := ih q a rest (by omega) hq hqa hPa hrest
        refine ⟨b :: (specs b ++ pre), y, t, by rw [h3]; simp, h4, ?_⟩
        intro z hz
        rcases List.mem_cons.1 hz with rfl | hz
        · exact hba
        · rcases List.mem_append.1 hz with hz | hz
          · exact hs z hz
          · exact h5 z hz

/-- A list whose end lies in another in sequence can be put before that place. -/
theorem common_order {la pre t : List Nat} {y : Nat} (hs : List.Sublist (y :: t) la) (hn : la.Nodup)
    (hp : (pre ++ y :: t).Nodup) (hd : ∀ z ∈ pre, z ∉ la) :
    ∃ u v, la = u ++ y :: v ∧ List.Sublist t v ∧ (u ++ (pre ++ y :: v)).Nodup := by
  obtain ⟨u, v, rfl, h1⟩ : ∃ u v, la = u ++ y :: v ∧ List.Sublist t v := by
    clear hn hd hp
    generalize he : y :: t = w at hs
    induction hs with
    | slnil => cases he
    | cons z _ ih =>
      obtain ⟨u, v, rfl, h⟩ := ih he
      exact ⟨z :: u, v, rfl, h⟩
    | @cons_cons l m z hs _ =>
      cases he
      exact ⟨[], m, rfl, hs⟩
  refine ⟨u, v, rfl, h1, ?_⟩
  rw [List.nodup_append] at hn hp ⊢
  refine ⟨hn.1, ?_, ?_⟩
  · rw [List.nodup_append]
    refine ⟨hp.1, hn.2.1, fun a ha b hb hab => ?_⟩
    subst hab
    exact hd a ha (List.mem_append_right _ hb)
  · intro a ha b hb hab
    subst hab
    rcases List.mem_append.1 hb with hb | hb
    · exact hd a hb (List.mem_append_left _ ha)
    · exact hn.2.2 a ha a hb rfl

/-- With plain instance sources every node has an order. -/
theorem Laid.plain_orders (h : Laid g nodes specs links) (hp : Pathed nodes) {inst : Nat → Option Nat} {P : Nat → Prop}
    (hl : PlainLinks nodes inst P links) : Orders g nodes := by
  have key : ∀ N ns c, ns.length < N → Names ns → (render ns, c) ∈ nodes →
      ∃ l, Lin g c l ∧ ∀ q d, Names q → (render q, d) ∈ nodes → d ∈ l → q.length ≤ ns.length ∨ P d := by
    intro N
    induction N with
    | zero => intro ns c hlt; omega
    | succ N ih =>
      intro ns c hlt hN hc
      have hspec : ∀ q d, (q, d) ∈ nodes → d ∉ specs c := fun q d hd hs => (h.spec _ c hc d hs).2.2.2 _ hd
      have hzero : ∀ q d, (q, d) ∈ nodes → d ≠ 0 := fun q d hd => by have := (h.comp _ d hd).1; omega
      have hself : ∀ q d, Names q → (render q, d) ∈ nodes → d = c → q.length ≤ ns.length := by
        rintro q d hq hd rfl
        rw [Path.render_inj hq hN (h.inj _ _ _ hd hc)]
        exact Nat.le_refl _
      by_cases hP : P c
      · obtain ⟨rest, h1, _, h3, _⟩ := Laid.lin_plain h hl (ns.length + 1) ns c (by omega) hN hc hP
        exact ⟨_, h1, fun q d hq hd hm => Or.inl (h3 q d hq hd hm).2⟩
      · -- the node above
        have hnear : ∀ a, nearestAbove nodes ns = some a → ∃ q la, (render q, a) ∈ nodes ∧ Lin g a la ∧ c ∉ la ∧
            ∀ q d, Names q → (render q, d) ∈ nodes → d ∈ la → q.length ≤ ns.length ∨ P d := by
          intro a ha
          obtain ⟨q, hq, hqn, hqa, _⟩ := nearestAbove_mem hN ha
          obtain ⟨la, hla, hmem⟩ := ih q a (by omega) hq hqa
          refine ⟨q, la, hqa, hla, fun hca => ?_, fun r d hr hd hm => ?_⟩
          · rcases hmem ns c hN hc hca with h1 | h1
            · omega
            · exact hP h1
          · rcases hmem r d hr hd hm with h1 | h1
            · exact Or.inl (by omega)
            · exact Or.inr h1
        have hplain : ∀ b, inst c = some b → ∃ ms lb, Names ms ∧ (render ms, b) ∈ nodes ∧ P b ∧ Lin g b lb ∧ c ∉ lb ∧
            (∀ q d, Names q → (render q, d) ∈ nodes → d ∈ lb → P d) ∧ ∀ p d, (p, d) ∈ nodes → d ∈ lb → Up nodes b d := by
          intro b hb
          obtain ⟨hPb, q, hq⟩ := hl.source _ c b hc hb
          obtain ⟨ms, hM, rfl⟩ := hp q b hq
          obtain ⟨rest, h1, _, h3, h4⟩ := Laid.lin_plain h hl (ms.length + 1) ms b (by omega) hM hq hPb
          exact ⟨ms, _, hM, hq, hPb, h1, fun hm => hP (h3 ns c hN hc hm).1, fun q d hq hd hm => (h3 q d hq hd hm).1,
            fun p d hd hm => (h4 p d hd).1 hm⟩
        rcases hl.links ns c hN hc with hlc | ⟨b, hb, hlc | hlc | ⟨a, ha, hlc, hab⟩⟩
        · cases hn : nearestAbove nodes ns with
          | none =>
            rw [hn] at hlc
            refine ⟨_, Laid.lin_none h hc hlc, fun q d hq hd hm => ?_⟩
            simp only [List.mem_cons, List.mem_append, List.not_mem_nil, or_false] at hm
            rcases hm with hm | hm | hm
            · exact Or.inl (hself q d hq hd hm)
            · exact absurd hm (hspec _ d hd)
            · exact absurd hm (hzero _ d hd)
          | some a =>
            rw [hn] at hlc
            obtain ⟨_, la, _, hla, hca, hmem⟩ := hnear a hn
            refine ⟨_, Laid.lin_one h hc hlc hla hca, fun q d hq hd hm => ?_⟩
            simp only [List.mem_cons, List.mem_append] at hm
            rcases hm with hm | hm | hm
            · exact Or.inl (hself q d hq hd hm)
            · exact absurd hm (hspec _ d hd)
            · exact hmem q d hq hd hm
        · refine ⟨_, Laid.lin_none h hc hlc, fun q d hq hd hm => ?_⟩
          simp only [List.mem_cons, List.mem_append, List.not_mem_nil, or_false] at hm
          rcases hm with hm | hm | hm
          · exact Or.inl (hself q d hq hd hm)
          · exact absurd hm (hspec _ d hd)
          · exact absurd hm (hzero _ d hd)
        · obtain ⟨_, lb, _, _, _, hlb, hcb, hmem, _⟩ := hplain b hb
          refine ⟨_, Laid.lin_one h hc hlc hlb hcb, fun q d hq hd hm => ?_⟩
          simp only [List.mem_cons, List.mem_append] at hm
          rcases hm with hm | hm | hm
          · exact Or.inl (hself q d hq hd hm)
          · exact absurd hm (hspec _ d hd)
          · exact Or.inr (hmem q d hq hd hm)
        · obtain ⟨qa, la, hqa, hla, hca, hmema⟩ := hnear a ha
          obtain ⟨ms, lb, hM, hqb, hPb, hlb, hcb, hmemb, hupb⟩ := hplain b hb
          have halb : a ∉ lb := fun hm => hab (hupb _ a hqa hm)
          obtain ⟨pre, y, t, hsplit, h2, h3⟩ := Laid.plain_end h hl hqa hla (ms.length + 1) ms b lb (by omega) hM hqb hPb hlb
          obtain ⟨u, v, h4, h5, h6⟩ := common_order h2 hla.nodup (hsplit ▸ hlb.nodup) h3
          have hay : a ∈ u := by
            have := hla.self
            obtain ⟨_, m, hma, _, _⟩ := Laid.shape h hqa hla
            rw [h4] at hma
            cases u with
            | nil =>
              simp only [List.nil_append, List.cons.injEq] at hma
              exact absurd (by rw [hsplit, hma.1]; simp) halb
            | cons z u =>
              simp only [List.cons_append, List.cons.injEq] at hma
              rw [hma.1]; exact List.mem_cons_self
          obtain ⟨m, hm⟩ := merge_common _ h6 _ (List.replicate (specs c).length [0] ++ [la, lb] ++ [links c])
            (Nat.le_refl _) (by
              intro l hml
              have sla : List.Sublist la (u ++ (pre ++ y :: v)) := by
                rw [h4]
                exact (List.Sublist.refl u).append (List.sublist_append_right pre (y :: v))
              simp only [List.mem_append, List.mem_replicate, List.mem_cons, List.not_mem_nil, or_false] at hml
              rcases hml with (⟨_, rfl⟩ | rfl | rfl) | rfl
              · exact (List.singleton_sublist.2 (Laid.zero_mem h hla (h.comp _ a hqa).2.1)).trans sla
              · exact sla
              · rw [hsplit]
                exact List.Sublist.trans ((List.Sublist.refl pre).append (h5.cons_cons y)) (List.sublist_append_right _ _)
              · rw [hlc]
                have hbm : b ∈ pre ++ y :: v := by
                  have hbl := hlb.self
                  rw [hsplit] at hbl
                  rcases List.mem_append.1 hbl with hb1 | hb1
                  · exact List.mem_append_left _ hb1
                  · rcases List.mem_cons.1 hb1 with rfl | hb1
                    · simp
                    · exact List.mem_append_right _ (List.mem_cons_of_mem _ (h5.subset hb1))
                exact (List.singleton_sublist.2 hay).append (List.singleton_sublist.2 hbm))
          refine ⟨_, Laid.lin_comp h hc (ls := [la, lb]) (by rw [hlc]; exact .cons hla (.cons hlb .nil)) ?_ hm, ?_⟩
          · intro l hml
            simp only [List.mem_cons, List.not_mem_nil, or_false] at hml
            rcases hml with rfl | rfl
            · exact hca
            · exact hcb
          · intro q d hq hd hmd
            rcases List.mem_cons.1 hmd with hmd | hmd
            · exact Or.inl (hself q d hq hd hmd)
            · rcases List.mem_append.1 hmd with hmd | hmd
              · exact absurd hmd (hspec _ d hd)
              · obtain ⟨l, hml, hdl⟩ := (merge_mem hm d).1 hmd
                simp only [List.mem_append, List.mem_replicate, List.mem_cons, List.not_mem_nil, or_false] at hml
                rcases hml with (⟨_, rfl⟩ | rfl | rfl) | rfl
                · exact absurd (List.mem_singleton.1 hdl) (hzero _ d hd)
                · exact hmema q d hq hd hdl
                · exact Or.inr (hmemb q d hq hd hdl)
                · rw [hlc] at hdl
                  simp only [List.mem_cons, List.not_mem_nil, or_false] at hdl
                  rcases hdl with rfl | rfl
                  · exact hmema q d hq hd hla.self
                  · exact Or.inr hPb
  intro p c hc
  obtain ⟨ns, hN, rfl⟩ := hp p c hc
  obtain ⟨l, hl', _⟩ := key (ns.length + 1) ns c (by omega) hN hc
  exact ⟨l, hl'⟩

open Classical in
/-- The links of a composed node when sources are plain: the nearest node above unless it is the source or above
it, and the source. -/
noncomputable def exactLinks (nodes : Dict Str Nat) (ns : List Str) : Option Nat → List Nat
  | none => (nearestAbove nodes ns).toList
  | some b => (nearestAbove nodes ns).toList.filter (fun a => decide (¬ Up nodes b a)) ++ [b]

/-- While instances of plain nodes are added. -/
structure PlainDone (g1 : Classes) (nodes : Dict Str Nat) (specs : Nat → List Nat) (P : Nat → Prop)
    (done : List (Str × Nat)) (g : Classes) (links : Nat → List Nat) : Prop where
  laid : Laid g nodes specs links
  own : ∀ d k, ¬ Touched k → get? k (g.own d) = get? k (g1.own d)
  plain : PlainLinks nodes (instSource g1 nodes specs) P links
  no : ∀ ns c, Names ns → (render ns, c) ∈ nodes → (render ns, c) ∉ done → links c = (nearestAbove nodes ns).toList
  yes : ∀ ns c, Names ns → (render ns, c) ∈ nodes → (render ns, c) ∈ done →
    links c = exactLinks nodes ns (instSource g1 nodes specs c)

theorem plain_step {g1 : Classes} {P : Nat → Prop} {done : List (Str × Nat)} (hp : Pathed nodes)
    (hins : ∀ p c, (p, c) ∈ nodes → (firstTable A_INSTANCE (tablesOf g1 specs c)).isSome)
    (hd : PlainDone g1 nodes specs P done g links) {pc : Str × Nat} (hm : pc ∈ nodes) (hn : pc ∉ done) :
    ∃ g' links', instanceArc nodes g pc = some g' ∧ PlainDone g1 nodes specs P (done ++ [pc]) g' links' := by
  obtain ⟨p, c⟩ := pc
  obtain ⟨ns, hN, rfl⟩ := hp p c hm
  have hO := Laid.plain_orders hd.laid hp hd.plain
  have hlc0 : links c = (nearestAbove nodes ns).toList := hd.no ns c hN hm hn
  have keepno : ∀ ns' c', Names ns' → (render ns', c') ∈ nodes → (render ns', c') ∉ done ++ [(render ns, c)] →
      links c' = (nearestAbove nodes ns').toList :=
    fun ns' c' hN' hc' h => hd.no ns' c' hN' hc' fun h' => h (List.mem_append_left _ h')
  have keepyes : links c = exactLinks nodes ns (instSource g1 nodes specs c) →
      ∀ ns' c', Names ns' → (render ns', c') ∈ nodes → (render ns', c') ∈ done ++ [(render ns, c)] →
      links c' = exactLinks nodes ns' (instSource g1 nodes specs c') := by
    intro hx ns' c' hN' hc' h
    rcases List.mem_append.1 h with h | h
    · exact hd.yes ns' c' hN' hc' h
    · have he := List.mem_singleton.1 h
      have h1 := Path.render_inj hN' hN (Prod.mk.inj he).1
      have h2 := (Prod.mk.inj he).2
      subst h1; subst h2
      exact hx
  have keep : instSource g1 nodes specs c = none → PlainDone g1 nodes specs P (done ++ [(render ns, c)]) g links :=
    fun hx => ⟨hd.laid, hd.own, hd.plain, keepno, keepyes (by rw [hx]; exact hlc0)⟩
  obtain ⟨v, hv⟩ := Option.isSome_iff_exists.1 (hins _ c hm)
  have hattr : g.attr c A_INSTANCE = v := Laid.attr_local hd.laid hO hm (by
    rw [firstTable_congr (fun d => hd.own d A_INSTANCE not_touched_instance), hv])
  have hin := instSource_eq (nodes := nodes) hv
  simp only [instanceArc]
  rw [hattr]
  split
  · rename_i ip
    split
    · rename_i hw
      exact ⟨g, links, rfl, keep (by rw [hin]; exact if_pos hw)⟩
    · rename_i hw
      have e : instSource g1 nodes specs c = get? ip nodes := by rw [hin]; exact if_neg hw
      split
      · rename_i hg
        exact ⟨g, links, rfl, keep (by rw [e, hg])⟩
      · rename_i b hg
        rw [hg] at e
        obtain ⟨hPb, q, hq⟩ := hd.plain.source _ c b hm e
        obtain ⟨ms, hM, rfl⟩ := hp q b hq
        have hsame := overload_same (render ns) c b OVERLOAD g
        have hown := overload_own (render ns) c b OVERLOAD (fun _ h => h) g
        generalize OVERLOAD.foldl (overloadAttr (render ns) c b) g = g2 at hsame hown ⊢
        have hL2 := Laid.same hd.laid hsame
        have hO2 := Laid.plain_orders hL2 hp hd.plain
        obtain ⟨lc, hlc⟩ := hO2 _ c hm
        have hown2 : ∀ d k, ¬ Touched k → get? k (g2.own d) = get? k (g1.own d) := fun d k hk => by
          rw [(hown d k).2 hk, hd.own d k hk]
        by_cases hbm : b ∈ g2.bases c
        · refine ⟨g2, links, by unfold Classes.safeAddBase; rw [if_pos hbm], hL2, hown2, hd.plain, keepno, keepyes ?_⟩
          rw [(hL2.comp _ c hm).2.2, List.mem_append] at hbm
          have hbl : b ∈ links c := by
            rcases hbm with hx | hx
            · exact absurd hq ((hL2.spec _ c hm b hx).2.2.2 _)
            · exact hx
          rw [hlc0] at hbl
          have hnb : nearestAbove nodes ns = some b := by simpa using hbl
          rw [hlc0, e, exactLinks, hnb]
          simp [Up.self]
        · obtain ⟨rest, hlb, _, hmem, hup⟩ := Laid.lin_plain hL2 hd.plain (ms.length + 1) ms b (by omega) hM hq hPb
          generalize b :: (specs b ++ rest) = lb at hlb hmem hup
          have hcb : c ∉ lb := by
            intro hx
            have := hd.plain.none c (hmem ns c hN hm hx).1
            rw [e] at this; cases this
          rw [safeAddBase_eq hlc.bases_nodup hbm, kept_eq hL2 hm hq hlb hcb, List.append_assoc]
          have hL := Laid.withBases hL2 hm (new := (links c).filter (fun d => decide (d = b ∨ d ∉ lb)) ++ [b]) (by
            intro d hd'
            rcases List.mem_append.1 hd' with hd' | hd'
            · exact hL2.link _ c hm d (List.mem_filter.1 hd').1
            · rw [List.mem_singleton.1 hd']; exact ⟨_, hq⟩)
          have hplain : PlainLinks nodes (instSource g1 nodes specs) P
              (fun d => if d = c then (links c).filter (fun d => decide (d = b ∨ d ∉ lb)) ++ [b] else links d) := by
            refine ⟨hd.plain.none, hd.plain.up, hd.plain.source, fun ns' c' hN' hc' => ?_⟩
            by_cases hcc : c' = c
            · subst hcc
              have := Path.render_inj hN' hN (hL2.inj _ _ _ hc' hm)
              subst this
              refine Or.inr ⟨b, e, Or.inr ?_⟩
              simp only [if_true]
              rw [hlc0]
              cases hnear : nearestAbove nodes ns' with
              | none => exact Or.inl (by simp)
              | some a =>
                obtain ⟨qa, _, _, hqa, _⟩ := nearestAbove_mem hN hnear
                have hab : a ≠ b := by
                  rintro rfl
                  apply hbm
                  rw [(hL2.comp _ c' hm).2.2, hlc0, hnear]; simp
                by_cases ha : a ∈ lb
                · exact Or.inl (by simp [hab, ha])
                · exact Or.inr ⟨a, rfl, by simp [ha], fun hu => ha ((hup _ a hqa).2 hu)⟩
            · simp only [if_neg hcc]
              exact hd.plain.links ns' c' hN' hc'
          refine ⟨_, _, setBases_eq.2 ⟨rfl, ?_⟩, hL, hown2, hplain, fun ns' c' hN' hc' h => ?_,
            fun ns' c' hN' hc' h => ?_⟩
          · exact Laid.all_lin hL (Laid.plain_orders hL hp hplain)
          · have hcc : c' ≠ c := by
              rintro rfl
              apply h
              rw [hL2.inj _ _ _ hc' hm]; simp
            simp only [if_neg hcc]
            exact keepno ns' c' hN' hc' h
          · by_cases hcc : c' = c
            · subst hcc
              have := Path.render_inj hN' hN (hL2.inj _ _ _ hc' hm)
              subst this
              simp only [if_true]
              rw [e, exactLinks, hlc0]
              congr 1
              apply List.filter_congr
              intro a ha
              have hna : nearestAbove nodes ns' = some a := by simpa using ha
              obtain ⟨qa, _, _, hqa, _⟩ := nearestAbove_mem hN hna
              have hab : a ≠ b := by
                rintro rfl
                apply hbm
                rw [(hL2.comp _ c' hm).2.2, hlc0, hna]; simp
              rw [Bool.eq_iff_iff]
              simp only [decide_eq_true_eq, hab, false_or]
              exact not_congr (hup _ a hqa)
            · simp only [if_neg hcc]
              rcases List.mem_append.1 h with h | h
              · exact hd.yes ns' c' hN' hc' h
              · exact absurd (Prod.mk.inj (List.mem_singleton.1 h)).2 hcc
  · rename_i hns
    refine ⟨g, links, rfl, keep ?_⟩
    rw [hin]
    split
    · exact (hns _ rfl).elim
    · rfl

theorem plain_fold {g1 : Classes} {P : Nat → Prop} (hp : Pathed nodes)
    (hins : ∀ p c, (p, c) ∈ nodes → (firstTable A_INSTANCE (tablesOf g1 specs c)).isSome) :
    ∀ (order done : List (Str × Nat)) (g : Classes) (links : Nat → List Nat), (∀ x ∈ order, x ∈ nodes) →
      (done ++ order).Nodup → PlainDone g1 nodes specs P done g links →
      ∃ g' links', order.foldlM (instanceArc nodes) g = some g' ∧ PlainDone g1 nodes specs P (done ++ order) g' links' := by
  intro order
  induction order with
  | nil => intro done g links _ _ hd; exact ⟨g, links, rfl, by simpa using hd⟩
  | cons pc order ih =>
    intro done g links hm hn hd
    obtain ⟨g2, links2, h1, h2⟩ := plain_step hp hins hd (hm pc List.mem_cons_self) (by
      intro hpc
      exact (List.nodup_append.1 hn).2.2 pc hpc pc List.mem_cons_self rfl)
    rw [List.foldlM_cons, h1]
    have e : done ++ pc :: order = done ++ [pc] ++ order := by simp
    rw [e] at hn ⊢
    exact ih (done ++ [pc]) g2 links2 (fun x hx => hm x (List.mem_cons_of_mem _ hx)) hn h2

end Nxt.Inherit
