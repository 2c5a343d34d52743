import Verif.Spec.Tree
/-!
# Lemmas about breadth first and depth first listing of a forest
-/
namespace Nxt.Tree
open Spec

/-- A child function on which every listing is finite and free of repeats. -/
structure Forest (ch : Str → List Str) (dom : Str → Prop) (depth : Str → Nat) (D : Nat) : Prop where
  dom_ch : ∀ p q, dom p → q ∈ ch p → dom q
  nodup : ∀ p, dom p → (ch p).Nodup
  uniq : ∀ p p' q, dom p → dom p' → q ∈ ch p → q ∈ ch p' → p = p'
  succ : ∀ p q, dom p → q ∈ ch p → depth q = depth p + 1
  bound : ∀ p q, dom p → q ∈ ch p → depth q ≤ D

variable {ch : Str → List Str} {dom : Str → Prop} {depth : Str → Nat} {D : Nat}

abbrev BelowCh (ch : Str → List Str) := Below (fun p q => q ∈ ch p)

theorem below_dom (F : Forest ch dom depth D) {p q : Str} (hp : dom p) (h : BelowCh ch p q) :
    dom q ∧ depth p < depth q ∧ depth q ≤ D := by
  induction h with
  | one h => exact ⟨F.dom_ch _ _ hp h, by rw [F.succ _ _ hp h]; omega, F.bound _ _ hp h⟩
  | step _ h ih => exact ⟨F.dom_ch _ _ ih.1 h, by rw [F.succ _ _ ih.1 h]; omega, F.bound _ _ ih.1 h⟩

theorem nodup_flatMap {α β : Type} {l : List α} {f : α → List β} (hl : l.Nodup) (hf : ∀ a ∈ l, (f a).Nodup)
    (hd : ∀ a ∈ l, ∀ b ∈ l, a ≠ b → ∀ x ∈ f a, x ∉ f b) : (l.flatMap f).Nodup := by
  induction l with
  | nil => exact List.nodup_nil
  | cons a l ih =>
    obtain ⟨h1, h2⟩ := List.nodup_cons.1 hl
    rw [List.flatMap_cons, List.nodup_append]
    refine ⟨hf a List.mem_cons_self, ih h2 (fun b hb => hf b (List.mem_cons_of_mem _ hb))
      (fun b hb c hc => hd b (List.mem_cons_of_mem _ hb) c (List.mem_cons_of_mem _ hc)), ?_⟩
    intro x hx y hy hxy
    subst hxy
    obtain ⟨b, hb, hxb⟩ := List.mem_flatMap.1 hy
    exact hd a List.mem_cons_self b (List.mem_cons_of_mem _ hb) (by rintro rfl; exact h1 hb) x hx hxb

/-- Breadth first listing. -/
theorem descLoop_spec (F : Forest ch dom depth D) (p : Str) (hp : dom p) (fuel : Nat) (d : Nat)
    (desc more : List Str) (hd : depth p < d) (hf : D + 1 - d < fuel)
    (hdesc : desc.Nodup) (hmore : more.Nodup)
    (h1 : ∀ q, q ∈ desc ↔ BelowCh ch p q ∧ depth q ≤ d) (h2 : ∀ q, q ∈ more ↔ BelowCh ch p q ∧ depth q = d) :
    ∃ r, descLoop ch fuel desc more = some r ∧ r.Nodup ∧ ∀ q, q ∈ r ↔ BelowCh ch p q := by
  induction fuel generalizing d desc more with
  | zero => omega
  | succ fuel ih =>
    rw [descLoop]
    split
    · rename_i hm
      refine ⟨desc, rfl, hdesc, fun q => ?_⟩
      rw [h1]
      refine ⟨fun h => h.1, fun h => ⟨h, ?_⟩⟩
      have key : ∀ q, BelowCh ch p q → depth q ≤ d := by
        intro q h
        induction h with
        | one h => rw [F.succ _ _ hp h]; omega
        | @step q r hq h ih =>
          have hq' := below_dom F hp hq
          rw [F.succ _ _ hq'.1 h]
          have : depth q ≠ d := by
            intro he
            have := (h2 q).2 ⟨hq, he⟩
            rw [hm] at this; cases this
          omega
      exact key q h
    · rename_i hm
      obtain ⟨y, hy⟩ := List.exists_mem_of_ne_nil _ hm
      have hy' := (h2 y).1 hy
      have hyd := (below_dom F hp hy'.1).2.2
      have hnew : ∀ q, q ∈ more.flatMap ch ↔ BelowCh ch p q ∧ depth q = d + 1 := by
        intro q
        rw [List.mem_flatMap]
        constructor
        · rintro ⟨a, ha, hq⟩
          obtain ⟨ha1, ha2⟩ := (h2 a).1 ha
          exact ⟨.step ha1 hq, by rw [F.succ _ _ (below_dom F hp ha1).1 hq, ha2]⟩
        · rintro ⟨hq, hqd⟩
          cases hq with
          | one h => rw [F.succ _ _ hp h] at hqd; omega
          | @step a _ ha h =>
            rw [F.succ _ _ (below_dom F hp ha).1 h] at hqd
            exact ⟨a, (h2 a).2 ⟨ha, by omega⟩, h⟩
      have hnn : (more.flatMap ch).Nodup := by
        apply nodup_flatMap hmore
        · intro a ha
          exact F.nodup a (below_dom F hp ((h2 a).1 ha).1).1
        · intro a ha b hb hab x hx hx'
          exact hab (F.uniq a b x (below_dom F hp ((h2 a).1 ha).1).1 (below_dom F hp ((h2 b).1 hb).1).1 hx hx')
      apply ih (d + 1) _ _ (by omega) (by omega) _ hnn _ hnew
      · rw [List.nodup_append]
        refine ⟨hdesc, hnn, ?_⟩
        rintro x hx y hy rfl
        have h3 := ((h1 x).1 hx).2
        have h4 := ((hnew x).1 hy).2
        omega
      · intro q
        rw [List.mem_append, h1, hnew]
        constructor
        · rintro (⟨h, h'⟩ | ⟨h, h'⟩)
          · exact ⟨h, by omega⟩
          · exact ⟨h, by omega⟩
        · rintro ⟨h, h'⟩
          by_cases hc : depth q ≤ d
          · exact .inl ⟨h, hc⟩
          · exact .inr ⟨h, by omega⟩

/-- Depth first listing without failure. -/
def pre (ch : Str → List Str) : Nat → Str → List Str
  | 0, _ => []
  | f + 1, p => (ch p).flatMap (fun c => c :: pre ch f c)

theorem pre_fuel (F : Forest ch dom depth D) {f g : Nat} {p : Str} (hp : dom p) (hf : D < f + depth p)
    (hg : D < g + depth p) : pre ch f p = pre ch g p := by
  have key : ∀ (f : Nat) (g : Nat) (p : Str), dom p → D < f + depth p → D < g + depth p → pre ch f p = pre ch g p := by
    intro f
    induction f with
    | zero =>
      intro g p hp hf hg
      have : ch p = [] := by
        rw [List.eq_nil_iff_forall_not_mem]
        intro q hq
        have := F.bound p q hp hq
        have := F.succ p q hp hq
        omega
      cases g with
      | zero => rfl
      | succ g => simp [pre, this]
    | succ f ih =>
      intro g p hp hf hg
      cases g with
      | zero =>
        have : ch p = [] := by
          rw [List.eq_nil_iff_forall_not_mem]
          intro q hq
          have := F.bound p q hp hq
          have := F.succ p q hp hq
          omega
        simp [pre, this]
      | succ g =>
        rw [pre, pre]
        have : ∀ c ∈ ch p, (c :: pre ch f c) = c :: pre ch g c := by
          intro c hc
          have hd := F.succ p c hp hc
          rw [ih g c (F.dom_ch p c hp hc) (by omega) (by omega)]
        rw [List.flatMap_def, List.flatMap_def, List.map_congr_left this]
  exact key f g p hp hf hg

theorem mapM_some {α β : Type} {l : List α} {f : α → Option β} {g : α → β} (h : ∀ a ∈ l, f a = some (g a)) :
    l.mapM f = some (l.map g) := by
  induction l with
  | nil => rfl
  | cons a l ih =>
    rw [List.mapM_cons, h a List.mem_cons_self, ih (fun b hb => h b (List.mem_cons_of_mem _ hb))]
    rfl

theorem orderedDesc_eq (F : Forest ch dom depth D) {och : Str → Option (List Str)} {fuel : Nat} {p : Str} (hp : dom p)
    (ho : ∀ q, q = p ∨ BelowCh ch p q → och q = some (ch q)) (hf : D < fuel + depth p) (h0 : fuel ≠ 0) :
    orderedDesc och fuel p = some (pre ch fuel p) := by
  induction fuel generalizing p with
  | zero => omega
  | succ f ih =>
    rw [orderedDesc, ho p (.inl rfl)]
    simp only
    rw [mapM_some (g := fun c => c :: pre ch f c)]
    · rw [Option.map_some, pre, List.flatMap_def]
    · intro c hc
      have hd := F.succ p c hp hc
      have hb := F.bound p c hp hc
      rw [ih (F.dom_ch p c hp hc) _ (by omega) (by omega)]
      · rfl
      · rintro q (rfl | hq)
        · exact ho _ (.inr (.one hc))
        · refine ho _ (.inr ?_)
          have key : ∀ q, BelowCh ch c q → BelowCh ch p q := by
            intro q h
            induction h with
            | one h => exact .step (.one hc) h
            | step _ h ih => exact .step ih h
          exact key q hq

theorem below_trans {p q r : Str} (h1 : BelowCh ch p q) (h2 : BelowCh ch q r) : BelowCh ch p r := by
  induction h2 with
  | one h => exact .step h1 h
  | step _ h ih => exact .step ih h

theorem below_first {p r : Str} (h : BelowCh ch p r) : ∃ c ∈ ch p, r = c ∨ BelowCh ch c r := by
  induction h with
  | one h => exact ⟨_, h, .inl rfl⟩
  | step _ h ih =>
    obtain ⟨c, hc, hq⟩ := ih
    refine ⟨c, hc, .inr ?_⟩
    rcases hq with rfl | hq
    · exact .one h
    · exact .step hq h

theorem mem_pre (F : Forest ch dom depth D) {f : Nat} {p : Str} (hp : dom p) (hf : D < f + depth p) (q : Str) :
    q ∈ pre ch f p ↔ BelowCh ch p q := by
  induction f generalizing p with
  | zero =>
    constructor
    · intro h; cases h
    · intro h; have := below_dom F hp h; omega
  | succ f ih =>
    rw [pre, List.mem_flatMap]
    constructor
    · rintro ⟨c, hc, hq⟩
      have hd := F.succ p c hp hc
      rcases List.mem_cons.1 hq with rfl | hq
      · exact .one hc
      · exact below_trans (.one hc) ((ih (F.dom_ch p c hp hc) (by omega)).1 hq)
    · intro h
      obtain ⟨c, hc, hq⟩ := below_first h
      have hd := F.succ p c hp hc
      refine ⟨c, hc, ?_⟩
      rcases hq with rfl | hq
      · exact List.mem_cons_self
      · exact List.mem_cons_of_mem _ ((ih (F.dom_ch p c hp hc) (by omega)).2 hq)

theorem anc_unique (F : Forest ch dom depth D) {a b x : Str} (ha : dom a) (hb : dom b) (hd : depth a = depth b)
    (h1 : x = a ∨ BelowCh ch a x) (h2 : x = b ∨ BelowCh ch b x) : a = b := by
  have key : ∀ x, BelowCh ch a x → (x = b ∨ BelowCh ch b x) → a = b := by
    intro x h
    induction h with
    | one h =>
      rintro (rfl | h2)
      · have := F.succ _ _ ha h; omega
      · cases h2 with
        | one h' => exact F.uniq _ _ _ ha hb h h'
        | step h' h'' =>
          have d1 := below_dom F hb h'
          have := F.succ _ _ ha h
          have := F.succ _ _ d1.1 h''
          omega
    | step hq h ih =>
      have d0 := below_dom F ha hq
      rintro (rfl | h2)
      · have := F.succ _ _ d0.1 h; omega
      · cases h2 with
        | one h' =>
          have := F.succ _ _ d0.1 h
          have := F.succ _ _ hb h'
          omega
        | step h' h'' =>
          have d1 := below_dom F hb h'
          have := F.uniq _ _ _ d0.1 d1.1 h h''
          exact ih (.inr (this ▸ h'))
  rcases h1 with rfl | h1
  · rcases h2 with h2 | h2
    · exact h2
    · have := below_dom F hb h2; omega
  · exact key x h1 h2

theorem pre_nodup (F : Forest ch dom depth D) {f : Nat} {p : Str} (hp : dom p) (hf : D < f + depth p) :
    (pre ch f p).Nodup := by
  induction f generalizing p with
  | zero => exact List.nodup_nil
  | succ f ih =>
    rw [pre]
    apply nodup_flatMap (F.nodup p hp)
    · intro c hc
      have hd := F.succ p c hp hc
      have hc' := F.dom_ch p c hp hc
      refine List.nodup_cons.2 ⟨?_, ih hc' (by omega)⟩
      intro h
      have := below_dom F hc' ((mem_pre F hc' (by omega) c).1 h)
      omega
    · intro a ha b hb hab x hx hx'
      have hda := F.succ p a hp ha
      have hdb := F.succ p b hp hb
      have ha' := F.dom_ch p a hp ha
      have hb' := F.dom_ch p b hp hb
      apply hab
      apply anc_unique F ha' hb' (by omega) (x := x)
      · rcases List.mem_cons.1 hx with h | h
        · exact .inl h
        · exact .inr ((mem_pre F ha' (by omega) x).1 h)
      · rcases List.mem_cons.1 hx' with h | h
        · exact .inl h
        · exact .inr ((mem_pre F hb' (by omega) x).1 h)

/-- The part of the listing below `q` follows `q` directly. -/
theorem pre_block (F : Forest ch dom depth D) {f : Nat} {p q : Str} (hp : dom p) (hf : D < f + depth p)
    (hq : BelowCh ch p q) : ∃ A B, pre ch f p = A ++ (q :: pre ch f q) ++ B := by
  induction f generalizing p with
  | zero => have := below_dom F hp hq; omega
  | succ f ih =>
    obtain ⟨c, hc, h⟩ := below_first hq
    have hd := F.succ p c hp hc
    have hc' := F.dom_ch p c hp hc
    obtain ⟨l1, l2, hl⟩ := List.append_of_mem hc
    have hq' := below_dom F hp hq
    have hfu : pre ch (f + 1) q = pre ch f q := pre_fuel F hq'.1 (by omega) (by omega)
    rw [hfu]
    have e : pre ch (f + 1) p = l1.flatMap (fun c => c :: pre ch f c) ++ ((c :: pre ch f c) ++
        l2.flatMap (fun c => c :: pre ch f c)) := by
      rw [pre, hl, List.flatMap_append, List.flatMap_cons]
    rw [e]
    rcases h with rfl | h
    · exact ⟨_, _, (List.append_assoc _ _ _).symm⟩
    · obtain ⟨A, B, hAB⟩ := ih hc' (by omega) h
      refine ⟨l1.flatMap (fun c => c :: pre ch f c) ++ c :: A, B ++ l2.flatMap (fun c => c :: pre ch f c), ?_⟩
      rw [hAB]
      simp only [List.append_assoc, List.cons_append]

theorem filter_flatMap_none {α β : Type} {l : List α} {f : α → List β} {P : β → Bool}
    (h : ∀ a ∈ l, (f a).filter P = []) : (l.flatMap f).filter P = [] := by
  rw [List.filter_eq_nil_iff]
  intro x hx
  obtain ⟨a, ha, hxa⟩ := List.mem_flatMap.1 hx
  have := h a ha
  rw [List.filter_eq_nil_iff] at this
  exact this x hxa

/-- Siblings come in their order. -/
theorem pre_siblings (F : Forest ch dom depth D) {f : Nat} {p x : Str} (hp : dom p) (hf : D < f + depth p)
    (hx : x = p ∨ BelowCh ch p x) : (pre ch f p).filter (· ∈ ch x) = ch x := by
  induction f generalizing p with
  | zero =>
    rcases hx with rfl | hx
    · have : ch x = [] := by
        rw [List.eq_nil_iff_forall_not_mem]
        intro q hq
        have := F.bound x q hp hq
        have := F.succ x q hp hq
        omega
      rw [this]; rfl
    · have := below_dom F hp hx; omega
  | succ f ih =>
    rw [pre]
    rcases hx with rfl | hx
    · -- direct children
      have key : ∀ l : List Str, (∀ c ∈ l, c ∈ ch x) →
          (l.flatMap (fun c => c :: pre ch f c)).filter (· ∈ ch x) = l := by
        intro l
        induction l with
        | nil => intro _; rfl
        | cons c l ihl =>
          intro hl
          have hc := hl c List.mem_cons_self
          have hd := F.succ x c hp hc
          have hc' := F.dom_ch x c hp hc
          rw [List.flatMap_cons, List.filter_append, ihl (fun b hb => hl b (List.mem_cons_of_mem _ hb)),
            List.filter_cons_of_pos (by simpa using hc)]
          have : (pre ch f c).filter (· ∈ ch x) = [] := by
            rw [List.filter_eq_nil_iff]
            intro q hq hqx
            have h1 := below_dom F hc' ((mem_pre F hc' (by omega) q).1 hq)
            have h2 := F.succ x q hp (by simpa using hqx)
            omega
          rw [this]; rfl
      exact key _ (fun c hc => hc)
    · obtain ⟨c, hc, h⟩ := below_first hx
      have hd := F.succ p c hp hc
      have hc' := F.dom_ch p c hp hc
      have hx' := below_dom F hp hx
      obtain ⟨l1, l2, hl⟩ := List.append_of_mem hc
      have hnd := F.nodup p hp
      rw [hl] at hnd
      have hother : ∀ b ∈ ch p, b ≠ c → (b :: pre ch f b).filter (· ∈ ch x) = [] := by
        intro b hb hbc
        have hdb := F.succ p b hp hb
        have hb' := F.dom_ch p b hp hb
        rw [List.filter_eq_nil_iff]
        intro q hq hqx
        have hqx : q ∈ ch x := by simpa using hqx
        apply hbc
        refine anc_unique F hb' hc' (by omega) (x := q) ?_ ?_
        · rcases List.mem_cons.1 hq with hq | hq
          · exact .inl hq
          · exact .inr ((mem_pre F hb' (by omega) q).1 hq)
        · rcases h with rfl | h
          · exact .inr (.one hqx)
          · exact .inr (.step h hqx)
      rw [hl, List.flatMap_append, List.flatMap_cons, List.filter_append, List.filter_append]
      rw [filter_flatMap_none (l := l1), filter_flatMap_none (l := l2), List.nil_append, List.append_nil]
      · have hcx : c ∉ ch x := by
          intro hcx
          have h1 := F.succ x c hx'.1 hcx
          rcases h with rfl | h
          · omega
          · have := below_dom F hc' h; omega
        rw [List.filter_cons_of_neg (by simpa using hcx)]
        exact ih hc' (by omega) h
      · intro b hb
        apply hother b (by rw [hl]; simp [hb])
        rintro rfl
        rw [List.nodup_append] at hnd
        exact (List.nodup_cons.1 hnd.2.1).1 hb
      · intro b hb
        apply hother b (by rw [hl]; simp [hb])
        rintro rfl
        rw [List.nodup_append] at hnd
        exact hnd.2.2 b hb b List.mem_cons_self rfl

/-- Every node comes after the node it is a child of. -/
theorem pre_parent_first (F : Forest ch dom depth D) {f : Nat} {p q : Str} (hp : dom p) (hf : D < f + depth p)
    {A B : List Str} (h : pre ch f p = A ++ q :: B) : q ∈ ch p ∨ ∃ x ∈ A, q ∈ ch x := by
  have hq : BelowCh ch p q := (mem_pre F hp hf q).1 (by rw [h]; simp)
  cases hq with
  | one hq => exact .inl hq
  | @step x _ hx hq =>
    refine .inr ⟨x, ?_, hq⟩
    have hx' := below_dom F hp hx
    obtain ⟨A', B', hAB⟩ := pre_block F hp hf hx
    have hnd := pre_nodup F hp hf
    have hqx : q ∈ pre ch f x := (mem_pre F hx'.1 (by omega) q).2 (.one hq)
    obtain ⟨C, E, hCE⟩ := List.append_of_mem hqx
    have e : A ++ q :: B = (A' ++ x :: C) ++ q :: (E ++ B') := by
      rw [← h, hAB, hCE]; simp
    rw [h] at hnd
    have : A = A' ++ x :: C := by
      have key : ∀ (l1 l2 r1 r2 : List Str), q ∉ l1 → q ∉ l2 → l1 ++ q :: r1 = l2 ++ q :: r2 → l1 = l2 := by
        intro l1
        induction l1 with
        | nil =>
          intro l2 r1 r2 _ h2 he
          cases l2 with
          | nil => rfl
          | cons b l2 =>
            simp only [List.nil_append, List.cons_append, List.cons.injEq] at he
            exact absurd (he.1 ▸ List.mem_cons_self) h2
        | cons a l1 ih =>
          intro l2 r1 r2 h1 h2 he
          cases l2 with
          | nil =>
            simp only [List.nil_append, List.cons_append, List.cons.injEq] at he
            exact absurd (he.1 ▸ List.mem_cons_self) h1
          | cons b l2 =>
            simp only [List.cons_append, List.cons.injEq] at he
            rw [he.1, ih l2 r1 r2 (fun h => h1 (List.mem_cons_of_mem _ h)) (fun h => h2 (List.mem_cons_of_mem _ h)) he.2]
      refine key _ _ _ _ ?_ ?_ e
      · intro hh; rw [List.nodup_append] at hnd; exact hnd.2.2 q hh q List.mem_cons_self rfl
      · intro hh; rw [e, List.nodup_append] at hnd; exact hnd.2.2 q hh q List.mem_cons_self rfl
    rw [this]; simp

end Nxt.Tree
