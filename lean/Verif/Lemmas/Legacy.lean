import Verif.Model.Legacy
import Verif.Lemmas.Layer
import Verif.Lemmas.Py
/-!
# Lemmas on arranging nodes by depth
-/
namespace Nxt.Legacy
open Dict Layer

/-- Induction over a left fold, with the part of the list already done. -/
theorem foldl_induct {A B : Type} (f : A → B → A) (P : List B → A → Prop) (l : List B) (a : A)
    (h0 : P [] a) (hs : ∀ pre x post a, l = pre ++ x :: post → P pre a → P (pre ++ [x]) (f a x)) :
    P l (l.foldl f a) := by
  have aux : ∀ (post pre : List B) (a : A), l = pre ++ post → P pre a → P l (post.foldl f a) := by
    intro post
    induction post with
    | nil => intro pre a h hp; rw [List.append_nil] at h; rw [h]; exact hp
    | cons x post ih =>
      intro pre a h hp
      rw [List.foldl_cons]
      exact ih (pre ++ [x]) _ (by rw [h]; simp) (hs pre x post a h hp)
  exact aux l [] a rfl h0

theorem le_maxDepth {paths : List Str} {p : Str} (h : p ∈ paths) : depth p ≤ maxDepth paths := by
  unfold maxDepth
  have aux : ∀ (l : List Str) (m : Nat), m ≤ l.foldl (fun m p => if depth p > m then depth p else m) m ∧
      ∀ p ∈ l, depth p ≤ l.foldl (fun m p => if depth p > m then depth p else m) m := by
    intro l
    induction l with
    | nil => intro m; simp
    | cons q l ih =>
      intro m
      rw [List.foldl_cons]
      obtain ⟨h1, h2⟩ := ih (if depth q > m then depth q else m)
      have h3 : m ≤ (if depth q > m then depth q else m) ∧ depth q ≤ (if depth q > m then depth q else m) := by
        split <;> omega
      refine ⟨Nat.le_trans h3.1 h1, ?_⟩
      intro p hp
      rcases List.mem_cons.1 hp with rfl | hp
      · exact Nat.le_trans h3.2 h1
      · exact h2 p hp
  exact (aux paths 0).2 p h

theorem mem_atDepth {paths : List Str} {d : Nat} {p : Str} :
    p ∈ atDepth paths d ↔ p ∈ paths ∧ depth p = d := by
  unfold atDepth
  rw [(List.mergeSort_perm _ _).mem_iff, List.mem_filter]
  simp

/-- The text of a path does not end in a slash. -/
def NoSlash (p : Str) : Prop := Py.endsWith p ['/'] = false

theorem isAncestor_iff {q p : Str} (hq : NoSlash q) (hp : NoSlash p) :
    isAncestor q p = true ↔ ∃ t, q ++ ['/'] = p ++ ['/'] ++ t := by
  unfold isAncestor addTerm
  rw [hq, hp]
  exact Py.startsWith_iff

theorem ancestor_depth {q p : Str} (hq : NoSlash q) (hp : NoSlash p) (h : isAncestor q p = true)
    (hne : p ≠ q) : depth p < depth q := by
  obtain ⟨t, ht⟩ := (isAncestor_iff hq hp).1 h
  rcases List.eq_nil_or_concat t with rfl | ⟨t', c, rfl⟩
  · rw [List.append_nil] at ht
    exact absurd (List.append_cancel_right ht).symm hne
  · rw [List.concat_eq_append, ← List.append_assoc] at ht
    obtain ⟨h1, _⟩ := List.append_inj' ht rfl
    rw [h1]
    unfold depth Py.count
    rw [List.count_append, List.count_append]
    simp
    omega

theorem ancestor_compare {q p c : Str} (hq : NoSlash q) (hp : NoSlash p) (hc : NoSlash c)
    (h1 : isAncestor q p = true) (h2 : isAncestor q c = true) :
    isAncestor c p = true ∨ isAncestor p c = true := by
  obtain ⟨t, ht⟩ := (isAncestor_iff hq hp).1 h1
  obtain ⟨u, hu⟩ := (isAncestor_iff hq hc).1 h2
  have e1 : p ++ ['/'] <+: q ++ ['/'] := ⟨t, ht.symm⟩
  have e2 : c ++ ['/'] <+: q ++ ['/'] := ⟨u, hu.symm⟩
  rcases List.prefix_or_prefix_of_prefix e1 e2 with ⟨w, hw⟩ | ⟨w, hw⟩
  · exact Or.inl ((isAncestor_iff hc hp).2 ⟨w, hw.symm⟩)
  · exact Or.inr ((isAncestor_iff hp hc).2 ⟨w, hw.symm⟩)

/-- What every stage of the arrangement keeps, without any condition on the paths. -/
structure Basic (paths acc : List Str) : Prop where
  nodup : acc.Nodup
  sub : ∀ p ∈ acc, p ∈ paths ∧ 1 ≤ depth p

theorem Basic.snoc {paths acc : List Str} (h : Basic paths acc) {q : Str} (hq : q ∉ acc) (h1 : q ∈ paths)
    (h2 : 1 ≤ depth q) : Basic paths (acc ++ [q]) := by
  constructor
  · rw [List.nodup_append]
    exact ⟨h.nodup, by simp, by intro a ha b hb hab; rw [List.mem_singleton] at hb; exact hq (by rw [← hb, ← hab]; exact ha)⟩
  · intro p hp
    rw [List.mem_append, List.mem_singleton] at hp
    rcases hp with hp | rfl
    · exact h.sub p hp
    · exact ⟨h1, h2⟩

theorem handle_basic (paths : List Str) (maxD fuel : Nat) (cur : Str) (cd : Nat) (acc : List Str)
    (h : Basic paths acc) :
    Basic paths (handle paths maxD fuel cur cd acc) ∧ acc <+: handle paths maxD fuel cur cd acc := by
  induction fuel generalizing cur cd acc with
  | zero => exact ⟨h, List.prefix_refl _⟩
  | succ fuel ih =>
    rw [handle]
    refine foldl_induct _ (fun _ a => Basic paths a ∧ acc <+: a) _ acc ⟨h, List.prefix_refl _⟩ ?_
    intro pre d post a hl ha
    refine foldl_induct _ (fun _ a => Basic paths a ∧ acc <+: a) _ a ha ?_
    intro pre' lower post' a' hl' ha'
    split
    · split
      · rename_i hnot
        have hm : lower ∈ atDepth paths d := by rw [hl']; simp
        rw [mem_atDepth] at hm
        have hd : d ∈ List.range' (cd + 1) (maxD - cd) := by rw [hl]; simp
        rw [List.mem_range'_1] at hd
        obtain ⟨g1, g2⟩ := ih lower d (a' ++ [lower]) (ha'.1.snoc hnot hm.1 (by omega))
        exact ⟨g1, ha'.2.trans ((List.prefix_append _ _).trans g2)⟩
      · exact ha'
    · exact ha'

/-- Every element comes after its proper ancestors. -/
def Ordered (paths acc : List Str) : Prop :=
  ∀ A q B, acc = A ++ q :: B → ∀ p ∈ paths, 1 ≤ depth p → p ≠ q → isAncestor q p = true → p ∈ A

theorem ordered_snoc {paths acc : List Str} (h : Ordered paths acc) {q : Str}
    (hq : ∀ p ∈ paths, 1 ≤ depth p → p ≠ q → isAncestor q p = true → p ∈ acc) :
    Ordered paths (acc ++ [q]) := by
  intro A x B hx p hp h1 h2 h3
  rcases List.eq_nil_or_concat B with rfl | ⟨B', b, rfl⟩
  · obtain ⟨e1, e2⟩ := List.append_inj' hx rfl
    cases e2
    rw [← e1]
    exact hq p hp h1 h2 h3
  · rw [List.concat_eq_append, ← List.cons_append, ← List.append_assoc] at hx
    obtain ⟨e1, _⟩ := List.append_inj' hx rfl
    exact h A x B' e1 p hp h1 h2 h3

theorem range'_split {s n d : Nat} {pre post : List Nat} (h : List.range' s n = pre ++ d :: post) :
    (s ≤ d ∧ d < s + n) ∧ ∀ x, s ≤ x → x < d → x ∈ pre := by
  have hd : d ∈ List.range' s n := by rw [h]; simp
  rw [List.mem_range'_1] at hd
  refine ⟨hd, fun x h1 h2 => ?_⟩
  have hx : x ∈ List.range' s n := List.mem_range'_1.2 ⟨h1, by omega⟩
  have hs : (List.range' s n).Pairwise (· < ·) := List.pairwise_lt_range'
  rw [h] at hx hs
  rcases List.mem_append.1 hx with hx | hx
  · exact hx
  · rcases List.mem_cons.1 hx with rfl | hx
    · omega
    · have := (List.pairwise_cons.1 (List.pairwise_append.1 hs).2.1).1 x hx
      omega

theorem handle_spec (paths : List Str) (hns : ∀ p ∈ paths, NoSlash p) (fuel : Nat)
    (cur : Str) (acc : List Str) (hcur : cur ∈ paths) (hca : cur ∈ acc)
    (hf : maxDepth paths - depth cur ≤ fuel) (hb : Basic paths acc) (ho : Ordered paths acc) :
    Ordered paths (handle paths (maxDepth paths) fuel cur (depth cur) acc) ∧
    ∀ q ∈ paths, q ≠ cur → isAncestor q cur = true →
      q ∈ handle paths (maxDepth paths) fuel cur (depth cur) acc := by
  induction fuel generalizing cur acc with
  | zero =>
    refine ⟨ho, fun q hq hne ha => ?_⟩
    have h1 := ancestor_depth (hns q hq) (hns cur hcur) ha (Ne.symm hne)
    have h2 := le_maxDepth hq
    omega
  | succ fuel ih =>
    have main := foldl_induct (fun acc d =>
      (atDepth paths d).foldl (fun acc lower =>
        if isAncestor lower cur then
          if lower ∉ acc then handle paths (maxDepth paths) fuel lower d (acc ++ [lower]) else acc
        else acc) acc)
      (fun ds a => Basic paths a ∧ acc <+: a ∧ Ordered paths a ∧
        ∀ q ∈ paths, q ≠ cur → isAncestor q cur = true → depth q ∈ ds → q ∈ a)
      (List.range' (depth cur + 1) (maxDepth paths - depth cur)) acc
      ⟨hb, List.prefix_refl _, ho, by intro q _ _ _ h; cases h⟩ (by
        intro pre d post a hl ⟨a1, a2, a3, a4⟩
        obtain ⟨hd, hpre⟩ := range'_split hl
        have inner := foldl_induct (fun acc lower =>
            if isAncestor lower cur then
              if lower ∉ acc then handle paths (maxDepth paths) fuel lower d (acc ++ [lower]) else acc
            else acc)
          (fun ls b => Basic paths b ∧ a <+: b ∧ Ordered paths b ∧
            ∀ q ∈ ls, isAncestor q cur = true → q ∈ b)
          (atDepth paths d) a ⟨a1, List.prefix_refl _, a3, by intro q h; cases h⟩ (by
            intro pre' lower post' b hl' ⟨b1, b2, b3, b4⟩
            have hm : lower ∈ atDepth paths d := by rw [hl']; simp
            rw [mem_atDepth] at hm
            by_cases hanc : isAncestor lower cur = true
            · rw [if_pos hanc]
              by_cases hin : lower ∈ b
              · rw [if_neg (by simpa using hin)]
                refine ⟨b1, b2, b3, ?_⟩
                intro q hq hqa
                rw [List.mem_append, List.mem_singleton] at hq
                rcases hq with hq | rfl
                · exact b4 q hq hqa
                · exact hin
              · rw [if_pos hin]
                have hbs := b1.snoc hin hm.1 (by omega)
                have hord : Ordered paths (b ++ [lower]) := by
                  apply ordered_snoc b3
                  intro p hp h1 h2 h3
                  have hcb : cur ∈ b := b2.subset (a2.subset hca)
                  by_cases hpc : p = cur
                  · rw [hpc]; exact hcb
                  · rcases ancestor_compare (hns lower hm.1) (hns p hp) (hns cur hcur) h3 hanc with g | g
                    · obtain ⟨A, B, hAB⟩ := List.append_of_mem hcb
                      rw [hAB]
                      exact List.mem_append_left _ (b3 A cur B hAB p hp h1 hpc g)
                    · have g1 := ancestor_depth (hns lower hm.1) (hns p hp) h3 h2
                      have g2 := ancestor_depth (hns p hp) (hns cur hcur) g (Ne.symm hpc)
                      exact b2.subset (a4 p hp hpc g (hpre _ (by omega) (by omega)))
                have hrec := handle_basic paths (maxDepth paths) fuel lower d (b ++ [lower]) hbs
                have hrec2 := ih lower (b ++ [lower]) hm.1 (by simp) (by omega) hbs hord
                rw [hm.2] at hrec2
                refine ⟨hrec.1, b2.trans ((List.prefix_append _ _).trans hrec.2), hrec2.1, ?_⟩
                intro q hq hqa
                rw [List.mem_append, List.mem_singleton] at hq
                rcases hq with hq | rfl
                · exact hrec.2.subset (List.mem_append_left _ (b4 q hq hqa))
                · exact hrec.2.subset (by simp)
            · rw [if_neg hanc]
              refine ⟨b1, b2, b3, ?_⟩
              intro q hq hqa
              rw [List.mem_append, List.mem_singleton] at hq
              rcases hq with hq | rfl
              · exact b4 q hq hqa
              · exact absurd hqa hanc)
        obtain ⟨i1, i2, i3, i4⟩ := inner
        refine ⟨i1, a2.trans i2, i3, ?_⟩
        intro q hq hne hqa hqd
        rw [List.mem_append, List.mem_singleton] at hqd
        rcases hqd with hqd | hqd
        · exact i2.subset (a4 q hq hne hqa hqd)
        · exact i4 q (mem_atDepth.2 ⟨hq, hqd⟩) hqa)
    rw [handle]
    refine ⟨main.2.2.1, fun q hq hne ha => main.2.2.2 q hq hne ha ?_⟩
    have h1 := ancestor_depth (hns q hq) (hns cur hcur) ha (Ne.symm hne)
    have h2 := le_maxDepth hq
    exact List.mem_range'_1.2 ⟨by omega, by omega⟩

theorem arrangeOrder_basic (paths : List Str) :
    Basic paths (arrangeOrder paths) ∧ ∀ p ∈ paths, 1 ≤ depth p → p ∈ arrangeOrder paths := by
  have main := foldl_induct (fun acc d =>
      (atDepth paths d).foldl (fun acc p =>
        if p ∉ acc then handle paths (maxDepth paths) (maxDepth paths) p d (acc ++ [p]) else acc) acc)
    (fun ds a => Basic paths a ∧ ∀ p ∈ paths, depth p ∈ ds → p ∈ a)
    (List.range' 1 (maxDepth paths)) [] ⟨⟨List.nodup_nil, by simp⟩, by intro p _ h; cases h⟩ (by
      intro pre d post a hl ⟨a1, a2⟩
      obtain ⟨hd, _⟩ := range'_split hl
      have inner := foldl_induct (fun acc p =>
          if p ∉ acc then handle paths (maxDepth paths) (maxDepth paths) p d (acc ++ [p]) else acc)
        (fun ls b => Basic paths b ∧ a <+: b ∧ ∀ q ∈ ls, q ∈ b)
        (atDepth paths d) a ⟨a1, List.prefix_refl _, by intro q h; cases h⟩ (by
          intro pre' p post' b hl' ⟨b1, b2, b3⟩
          have hm : p ∈ atDepth paths d := by rw [hl']; simp
          rw [mem_atDepth] at hm
          by_cases hin : p ∈ b
          · rw [if_neg (by simpa using hin)]
            refine ⟨b1, b2, ?_⟩
            intro q hq
            rw [List.mem_append, List.mem_singleton] at hq
            rcases hq with hq | rfl
            · exact b3 q hq
            · exact hin
          · rw [if_pos hin]
            obtain ⟨g1, g2⟩ := handle_basic paths (maxDepth paths) (maxDepth paths) p d (b ++ [p])
              (b1.snoc hin hm.1 (by omega))
            refine ⟨g1, b2.trans ((List.prefix_append _ _).trans g2), ?_⟩
            intro q hq
            rw [List.mem_append, List.mem_singleton] at hq
            rcases hq with hq | rfl
            · exact g2.subset (List.mem_append_left _ (b3 q hq))
            · exact g2.subset (by simp))
      obtain ⟨i1, i2, i3⟩ := inner
      refine ⟨i1, ?_⟩
      intro p hp hpd
      rw [List.mem_append, List.mem_singleton] at hpd
      rcases hpd with hpd | hpd
      · exact i2.subset (a2 p hp hpd)
      · exact i3 p (mem_atDepth.2 ⟨hp, hpd⟩))
  refine ⟨main.1, fun p hp h1 => main.2 p hp ?_⟩
  have h2 := le_maxDepth hp
  exact List.mem_range'_1.2 ⟨h1, by omega⟩

theorem arrangeOrder_ordered (paths : List Str) (hns : ∀ p ∈ paths, NoSlash p) :
    Ordered paths (arrangeOrder paths) := by
  have main := foldl_induct (fun acc d =>
      (atDepth paths d).foldl (fun acc p =>
        if p ∉ acc then handle paths (maxDepth paths) (maxDepth paths) p d (acc ++ [p]) else acc) acc)
    (fun ds a => Basic paths a ∧ Ordered paths a ∧ ∀ p ∈ paths, depth p ∈ ds → p ∈ a)
    (List.range' 1 (maxDepth paths)) []
    ⟨⟨List.nodup_nil, by simp⟩, by intro A q B h; simp at h, by intro p _ h; cases h⟩ (by
      intro pre d post a hl ⟨a1, a3, a2⟩
      obtain ⟨hd, hpre⟩ := range'_split hl
      have inner := foldl_induct (fun acc p =>
          if p ∉ acc then handle paths (maxDepth paths) (maxDepth paths) p d (acc ++ [p]) else acc)
        (fun ls b => Basic paths b ∧ a <+: b ∧ Ordered paths b ∧ ∀ q ∈ ls, q ∈ b)
        (atDepth paths d) a ⟨a1, List.prefix_refl _, a3, by intro q h; cases h⟩ (by
          intro pre' p post' b hl' ⟨b1, b2, b4, b3⟩
          have hm : p ∈ atDepth paths d := by rw [hl']; simp
          rw [mem_atDepth] at hm
          by_cases hin : p ∈ b
          · rw [if_neg (by simpa using hin)]
            refine ⟨b1, b2, b4, ?_⟩
            intro q hq
            rw [List.mem_append, List.mem_singleton] at hq
            rcases hq with hq | rfl
            · exact b3 q hq
            · exact hin
          · rw [if_pos hin]
            have hbs := b1.snoc hin hm.1 (by omega)
            obtain ⟨g1, g2⟩ := handle_basic paths (maxDepth paths) (maxDepth paths) p d (b ++ [p]) hbs
            have hord : Ordered paths (b ++ [p]) := by
              apply ordered_snoc b4
              intro x hx h1 h2 h3
              have := ancestor_depth (hns p hm.1) (hns x hx) h3 h2
              exact b2.subset (a2 x hx (hpre _ h1 (by omega)))
            have g3 := handle_spec paths hns (maxDepth paths) p (b ++ [p]) hm.1 (by simp) (by omega) hbs hord
            rw [hm.2] at g3
            refine ⟨g1, b2.trans ((List.prefix_append _ _).trans g2), g3.1, ?_⟩
            intro q hq
            rw [List.mem_append, List.mem_singleton] at hq
            rcases hq with hq | rfl
            · exact g2.subset (List.mem_append_left _ (b3 q hq))
            · exact g2.subset (by simp))
      obtain ⟨i1, i2, i4, i3⟩ := inner
      refine ⟨i1, i4, ?_⟩
      intro p hp hpd
      rw [List.mem_append, List.mem_singleton] at hpd
      rcases hpd with hpd | hpd
      · exact i2.subset (a2 p hp hpd)
      · exact i3 p (mem_atDepth.2 ⟨hp, hpd⟩))
  exact main.2.1

end Nxt.Legacy
