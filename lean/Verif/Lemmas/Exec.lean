import Verif.Spec.Exec
import Verif.Props.Children
import Verif.Lemmas.Dirty
import Verif.Lemmas.Legacy
/-!
# Lemmas about execution order
-/
namespace Nxt.Exec
open Dict Tree Spec Path

/-! ### Chain of roots -/

theorem nextRoot_some {nodes : Nodes} {p q : Str} : nextRoot nodes p = some q ↔ IsNextRoot nodes p q := by
  unfold nextRoot scan
  induction nodes with
  | nil =>
    constructor
    · intro h; cases h
    · rintro ⟨A, n, B, h, -⟩; simp at h
  | cons e nodes ih =>
    obtain ⟨k, n⟩ := e
    have hW : WORLD = ['/'] := rfl
    have step : ∀ (hno : ¬ (n.parent = ['/'] ∧ n.execIn = .str p)),
        (IsNextRoot ((k, n) :: nodes) p q ↔ IsNextRoot nodes p q) := by
      intro hno
      constructor
      · rintro ⟨A, m, B, h1, h2, h3, h4⟩
        cases A with
        | nil =>
          simp only [List.nil_append, List.cons.injEq, Prod.mk.injEq] at h1
          obtain ⟨⟨-, rfl⟩, -⟩ := h1
          exact absurd ⟨h2, h3⟩ hno
        | cons a A =>
          simp only [List.cons_append, List.cons.injEq] at h1
          exact ⟨A, m, B, h1.2, h2, h3, fun e he => h4 e (List.mem_cons_of_mem _ he)⟩
      · rintro ⟨A, m, B, h1, h2, h3, h4⟩
        refine ⟨(k, n) :: A, m, B, by rw [h1]; rfl, h2, h3, ?_⟩
        intro e he
        rcases List.mem_cons.1 he with rfl | he
        · exact fun h h' => hno ⟨h, h'⟩
        · exact h4 e he
    by_cases hp : n.parent = ['/']
    · rw [List.filter_cons_of_pos (by simpa [hW] using hp), List.find?_cons]
      split
      · rename_i hm
        have he : n.execIn = .str p := by
          split at hm
          · rename_i s hs
            rw [hs, of_decide_eq_true hm]
          · cases hm
        simp only [Option.map_some, Option.some.injEq]
        constructor
        · rintro rfl
          exact ⟨[], n, nodes, rfl, hp, he, by simp⟩
        · rintro ⟨A, m, B, h1, h2, h3, h4⟩
          cases A with
          | nil =>
            simp only [List.nil_append, List.cons.injEq, Prod.mk.injEq] at h1
            exact h1.1.1
          | cons a A =>
            simp only [List.cons_append, List.cons.injEq] at h1
            have := h4 a List.mem_cons_self
            rw [← h1.1] at this
            exact absurd he (this hp)
      · rename_i hm
        rw [ih, step]
        rintro ⟨-, he⟩
        simp [he] at hm
    · rw [List.filter_cons_of_neg (by simpa [hW] using hp), ih, step (fun h => hp h.1)]

theorem nextRoot_mem {nodes : Nodes} {p q : Str} (h : IsNextRoot nodes p q) : q ∈ keys nodes := by
  obtain ⟨A, n, B, h1, -⟩ := h
  rw [h1]; exact mem_keys.2 ⟨n, by simp⟩

theorem nextRoot_unique {nodes : Nodes} {p q r : Str} (h : IsNextRoot nodes p q) (h' : IsNextRoot nodes p r) : q = r := by
  rw [← nextRoot_some] at h h'
  rw [h] at h'; exact Option.some.inj h'

theorem rootLoop_chain {nodes : Nodes} {fuel : Nat} {p : Str} {order r : List Str}
    (h : rootLoop nodes fuel p order = some r) : ∃ l, r = order ++ l ∧ ExecChain nodes p (p :: l) := by
  induction fuel generalizing p order with
  | zero => cases h
  | succ fuel ih =>
    rw [rootLoop] at h
    split at h
    · rename_i q hq
      obtain ⟨l, h1, h2⟩ := ih h
      exact ⟨q :: l, by rw [h1]; simp, .cons (nextRoot_some.1 hq) h2⟩
    · rename_i hq
      cases h
      refine ⟨[], by simp, .last (fun q hq' => ?_)⟩
      rw [← nextRoot_some, hq] at hq'
      cases hq'

theorem chain_rootLoop {nodes : Nodes} {p : Str} {l : List Str} (h : ExecChain nodes p l) (order : List Str) (fuel : Nat)
    (hf : l.length ≤ fuel) : rootLoop nodes fuel p order = some (order ++ l.tail) := by
  induction h generalizing order fuel with
  | last hn =>
    cases fuel with
    | zero => simp at hf
    | succ fuel =>
      rw [rootLoop]
      cases hq : nextRoot nodes _ with
      | none => simp
      | some q => exact absurd (nextRoot_some.1 hq) (hn q)
  | @cons p q l hq hl ih =>
    cases fuel with
    | zero => simp at hf
    | succ fuel =>
      rw [rootLoop, nextRoot_some.2 hq]
      simp only
      rw [ih (order ++ [q]) fuel (by simpa using hf)]
      cases hl <;> simp

theorem rootLoop_terminates {nodes : Nodes} {s : Str} (hc : ¬ Cyclic nodes s) (fuel : Nat) (p : Str) (order : List Str)
    (hp : p ∈ order) (hps : p = s ∨ Below (IsNextRoot nodes) s p) (hn : order.Nodup)
    (hsub : ∀ x ∈ order, x = s ∨ x ∈ keys nodes)
    (hreach : ∀ x ∈ order, (x = s ∨ Below (IsNextRoot nodes) s x) ∧ (x = p ∨ Below (IsNextRoot nodes) x p))
    (hf : (keys nodes).length + 2 ≤ fuel + order.length) : ∃ r, rootLoop nodes fuel p order = some r := by
  induction fuel generalizing p order with
  | zero =>
    exfalso
    have : order.length ≤ (s :: keys nodes).length :=
      Dirty.length_le_of_nodup hn (fun x hx => by
        rcases hsub x hx with rfl | h
        · exact List.mem_cons_self
        · exact List.mem_cons_of_mem _ h)
    simp only [List.length_cons] at this
    omega
  | succ fuel ih =>
    rw [rootLoop]
    cases hq : nextRoot nodes p with
    | none => exact ⟨_, rfl⟩
    | some q =>
      simp only
      have hq' := nextRoot_some.1 hq
      have hsq : Below (IsNextRoot nodes) s q := by
        rcases hps with rfl | h
        · exact .one hq'
        · exact .step h hq'
      have hqo : q ∉ order := by
        intro hqo
        obtain ⟨h1, h2⟩ := hreach q hqo
        refine hc ⟨q, h1, ?_⟩
        rcases h2 with rfl | h2
        · exact .one hq'
        · exact .step h2 hq'
      apply ih q (order ++ [q]) (by simp) (.inr hsq)
      · rw [List.nodup_append]
        refine ⟨hn, List.nodup_cons.2 ⟨by simp, List.nodup_nil⟩, ?_⟩
        rintro a ha b hb rfl
        rw [List.mem_singleton] at hb
        exact hqo (hb ▸ ha)
      · intro x hx
        rcases List.mem_append.1 hx with hx | hx
        · exact hsub x hx
        · rw [List.mem_singleton] at hx
          exact .inr (hx ▸ nextRoot_mem hq')
      · intro x hx
        rcases List.mem_append.1 hx with hx | hx
        · obtain ⟨h1, h2⟩ := hreach x hx
          refine ⟨h1, .inr ?_⟩
          rcases h2 with rfl | h2
          · exact .one hq'
          · exact .step h2 hq'
        · rw [List.mem_singleton] at hx
          subst hx
          exact ⟨.inr hsq, .inl rfl⟩
      · rw [List.length_append, List.length_singleton]; omega

theorem cyclic_step {nodes : Nodes} {p : Str} (h : Cyclic nodes p) : ∃ q, nextRoot nodes p = some q ∧ Cyclic nodes q := by
  have first : ∀ {a b : Str}, Below (IsNextRoot nodes) a b → ∃ c, IsNextRoot nodes a c ∧ (b = c ∨ Below (IsNextRoot nodes) c b) := by
    intro a b h
    induction h with
    | one h => exact ⟨_, h, .inl rfl⟩
    | step _ h ih =>
      obtain ⟨c, h1, h2⟩ := ih
      refine ⟨c, h1, .inr ?_⟩
      rcases h2 with rfl | h2
      · exact .one h
      · exact .step h2 h
  obtain ⟨c, h1, h2⟩ := h
  rcases h1 with rfl | h1
  · obtain ⟨q, hq, hcq⟩ := first h2
    refine ⟨q, nextRoot_some.2 hq, ?_⟩
    rcases hcq with rfl | hcq
    · exact ⟨c, .inl rfl, h2⟩
    · exact ⟨c, .inr hcq, h2⟩
  · obtain ⟨q, hq, hcq⟩ := first h1
    exact ⟨q, nextRoot_some.2 hq, c, hcq, h2⟩

theorem rootLoop_cyclic {nodes : Nodes} (fuel : Nat) (p : Str) (order : List Str) (h : Cyclic nodes p) :
    rootLoop nodes fuel p order = none := by
  induction fuel generalizing p order with
  | zero => rfl
  | succ fuel ih =>
    obtain ⟨q, h1, h2⟩ := cyclic_step h
    rw [rootLoop, h1]
    exact ih q _ h2

/-! ### Order within a root -/

theorem isEnabled_iff (nodes : Nodes) (p : Str) : isEnabled nodes p = true ↔ ¬ Off nodes p := by
  unfold isEnabled Off
  cases hg : get? p nodes with
  | none => simp
  | some n =>
    simp only [Option.some.injEq, exists_eq_left']
    cases n.enabled <;> simp [Val.truthy]

theorem isAncestor_iff {a d : Str} (ha : Proper a) (hd : Proper d) : isAncestor d a = true ↔ Above a d := by
  obtain ⟨ms, m1, m2, rfl⟩ := ha
  obtain ⟨ns, n1, n2, rfl⟩ := hd
  rw [Props.C10_is_ancestor ns ms n1 m1]
  constructor
  · rintro (h | ⟨rest, h1, rfl⟩)
    · exact absurd h m2
    · exact ⟨ms, rest, n1, h1, rfl, rfl⟩
  · rintro ⟨ms', rest, k1, k2, k3, k4⟩
    have e1 := render_inj m1 (names_append.1 k1).1 k3
    subst e1
    exact .inr ⟨rest, k2, render_inj n1 k1 k4⟩

theorem above_trans {a b c : Str} (h1 : Above a b) (h2 : Above b c) : Above a c := by
  obtain ⟨ns, rest, k1, k2, k3, k4⟩ := h1
  obtain ⟨ms, rest', j1, j2, j3, j4⟩ := h2
  have e := render_inj k1 (names_append.1 j1).1 (k4 ▸ j3)
  subst e
  exact ⟨ns, rest ++ rest', by simpa using j1, by simp [k2], k3, by simpa using j4⟩

theorem dropWhile_snoc {s : Str} (l : List Str) (d : Str) :
    (l ++ [d]).dropWhile (fun x => decide (x ≠ s)) =
      if s ∈ l then l.dropWhile (fun x => decide (x ≠ s)) ++ [d] else if d = s then [d] else [] := by
  induction l with
  | nil => by_cases h : d = s <;> simp [h]
  | cons a l ih =>
    by_cases h : a = s
    · simp [h]
    · rw [List.cons_append, List.dropWhile_cons_of_pos (by simpa using h),
        List.dropWhile_cons_of_pos (by simpa using h), ih]
      have : s ∈ a :: l ↔ s ∈ l := by
        rw [List.mem_cons]; exact ⟨fun hh => hh.resolve_left (Ne.symm h), .inr⟩
      simp only [this]

theorem dropWhile_none {s : Str} {l : List Str} (h : s ∉ l) : l.dropWhile (fun x => decide (x ≠ s)) = [] := by
  induction l with
  | nil => rfl
  | cons a l ih =>
    rw [List.mem_cons, not_or] at h
    rw [List.dropWhile_cons_of_pos (by simpa using Ne.symm h.1)]
    exact ih h.2

theorem descScan_spec (nodes : Nodes) (start : Str) (D : List Str) (hprop : ∀ q ∈ D, Proper q)
    (hanc : ∀ A q B, D = A ++ q :: B → ∀ a ∈ D, Above a q → a ∈ A) (found : Bool) (order : List Str) :
    (D.foldl (descStep nodes start) ⟨found, [], order⟩).found = (found || decide (start ∈ D)) ∧
    (D.foldl (descStep nodes start) ⟨found, [], order⟩).order =
      order ++ running nodes D (if found then D else D.dropWhile (fun x => decide (x ≠ start))) := by
  have := Legacy.foldl_induct (descStep nodes start) (fun pre s =>
      s.found = (found || decide (start ∈ pre)) ∧ (∀ a, a ∈ s.disabled ↔ a ∈ pre ∧ ¬ Runs nodes D a) ∧
      s.order = order ++ running nodes D (if found then pre else pre.dropWhile (fun x => decide (x ≠ start))))
    D ⟨found, [], order⟩ (by refine ⟨by simp, by simp, ?_⟩; cases found <;> simp [running])
    (by
      rintro pre d post s hD ⟨h1, h2, h3⟩
      have hd : d ∈ D := by rw [hD]; simp
      have hpre : ∀ a ∈ pre, a ∈ D := fun a ha => by rw [hD]; simp [ha]
      have hen : (if isEnabled nodes d then !(s.disabled.any (fun a => isAncestor d a)) else false) = true ↔
          Runs nodes D d := by
        constructor
        · intro h
          split at h
          · rename_i he
            rw [isEnabled_iff] at he
            intro a ha hoff
            rcases hoff with rfl | hab
            · exact he
            · intro hoff
              have hapre := hanc pre d post hD a ha hab
              have : a ∈ s.disabled := (h2 a).2 ⟨hapre, fun hr => hr a ha (.inl rfl) hoff⟩
              rw [Bool.not_eq_true', ← Bool.not_eq_true, List.any_eq_true] at h
              exact h ⟨a, this, (isAncestor_iff (hprop a ha) (hprop d hd)).2 hab⟩
          · cases h
        · intro h
          rw [if_pos ((isEnabled_iff nodes d).2 (h d hd (.inl rfl)))]
          rw [Bool.not_eq_true', ← Bool.not_eq_true, List.any_eq_true]
          rintro ⟨a, ha, hab⟩
          obtain ⟨ha1, ha2⟩ := (h2 a).1 ha
          have hab := (isAncestor_iff (hprop a (hpre a ha1)) (hprop d hd)).1 hab
          apply ha2
          intro b hb hba
          apply h b hb
          rcases hba with rfl | hba
          · exact .inr hab
          · exact .inr (above_trans hba hab)
      have hf : (if !s.found ∧ d = start then true else s.found) = (found || decide (start ∈ pre ++ [d])) := by
        rw [h1]
        by_cases hs : start ∈ pre
        · simp [hs]
        · by_cases hds : d = start
          · cases found <;> simp [hs, hds]
          · cases found <;> simp [hs, hds, Ne.symm hds]
      unfold descStep
      simp only
      rw [hf]
      by_cases hr : Runs nodes D d
      · rw [hen.2 hr]
        simp only [Bool.not_true, Bool.false_eq_true, if_false]
        refine ⟨trivial, ?_, ?_⟩
        · intro a
          rw [h2, List.mem_append, List.mem_singleton]
          constructor
          · rintro ⟨x, y⟩; exact ⟨.inl x, y⟩
          · rintro ⟨x | rfl, y⟩
            · exact ⟨x, y⟩
            · exact absurd hr y
        · rw [h3]
          unfold running
          cases found with
          | true => simp [List.filter_append, hr]
          | false =>
            simp only [Bool.false_or, Bool.false_eq_true, if_false]
            rw [dropWhile_snoc]
            by_cases hs : start ∈ pre
            · simp [hs, List.filter_append, hr]
            · have hdw : pre.dropWhile (fun x => decide (x ≠ start)) = [] :=
                dropWhile_none hs
              rw [hdw, if_neg hs]
              by_cases hds : d = start
              · subst hds; simp [hr]
              · simp [hs, hds, Ne.symm hds]
      · have : (if isEnabled nodes d then !(s.disabled.any (fun a => isAncestor d a)) else false) = false := by
          rw [← Bool.not_eq_true, hen]; exact hr
        rw [this]
        simp only [Bool.not_false, if_true]
        refine ⟨trivial, ?_, ?_⟩
        · intro a
          rw [List.mem_append, h2, List.mem_append, List.mem_singleton]
          constructor
          · rintro (⟨x, y⟩ | rfl)
            · exact ⟨.inl x, y⟩
            · exact ⟨.inr rfl, hr⟩
          · rintro ⟨x | rfl, y⟩
            · exact .inl ⟨x, y⟩
            · exact .inr rfl
        · rw [h3]
          unfold running
          cases found with
          | true => simp [List.filter_append, hr]
          | false =>
            simp only [Bool.false_eq_true, if_false]
            rw [dropWhile_snoc]
            by_cases hs : start ∈ pre
            · simp [hs, List.filter_append, hr]
            · have hdw : pre.dropWhile (fun x => decide (x ≠ start)) = [] :=
                dropWhile_none hs
              rw [hdw, if_neg hs]
              by_cases hds : d = start
              · subst hds; simp [hr]
              · simp [hds])
  exact ⟨this.1, this.2.2⟩

theorem orderedDesc_mono {ch : Str → Option (List Str)} {f g : Nat} {p : Str} {r : List Str}
    (h : orderedDesc ch f p = some r) (hg : f ≤ g) : orderedDesc ch g p = some r := by
  induction f generalizing g p r with
  | zero => cases h
  | succ f ih =>
    cases g with
    | zero => omega
    | succ g =>
      rw [orderedDesc] at h ⊢
      cases hc : ch p with
      | none => rw [hc] at h; cases h
      | some cs =>
        rw [hc] at h
        simp only at h ⊢
        have key : ∀ (cs : List Str) (l : List (List Str)),
            cs.mapM (fun c => (orderedDesc ch f c).map (fun d => c :: d)) = some l →
            cs.mapM (fun c => (orderedDesc ch g c).map (fun d => c :: d)) = some l := by
          intro cs
          induction cs with
          | nil => intro l h; exact h
          | cons c cs ihc =>
            intro l h
            rw [List.mapM_cons] at h ⊢
            cases h1 : orderedDesc ch f c with
            | none => rw [h1] at h; cases h
            | some d =>
              rw [h1] at h
              rw [ih h1 (by omega)]
              cases h2 : cs.mapM (fun c => (orderedDesc ch f c).map (fun d => c :: d)) with
              | none => rw [h2] at h; cases h
              | some l' =>
                rw [h2] at h
                rw [ihc l' h2]
                exact h
        cases h1 : cs.mapM (fun c => (orderedDesc ch f c).map (fun d => c :: d)) with
        | none => rw [h1] at h; cases h
        | some l =>
          rw [h1] at h
          rw [key cs l h1]
          exact h

/-- Every successful listing below a node is free of repeats, has exactly its descendants and has
parents first. -/
theorem listing_spec {nodes : Nodes} {kids : Str → Nodes} (T : TreeOk nodes) (K : KidsOk nodes kids)
    {ns : List Str} (hn : Names ns) (h0 : ns ≠ []) (hk : render ns ∈ keys nodes) {fuel : Nat} {r : List Str}
    (h : descendantsOrdered nodes kids false fuel (render ns) = some r) :
    r.Nodup ∧ (∀ q, q ∈ r ↔ IsDescendant nodes (render ns) q) ∧
    (∀ A q B, r = A ++ q :: B → parentPath q = render ns ∨ parentPath q ∈ A) := by
  obtain ⟨N, hN⟩ := Props.C47_ordered nodes kids T K ns hn h0 hk
  obtain ⟨r', h1, h2, h3, h4, -⟩ := hN (max N fuel) (Nat.le_max_left _ _)
  have hw : render ns ≠ WORLD := fun h => h0 ((render_eq_world hn).1 h)
  have : descendantsOrdered nodes kids false (max N fuel) (render ns) = some r := by
    unfold descendantsOrdered at h ⊢
    rw [if_neg hw] at h ⊢
    exact orderedDesc_mono h (Nat.le_max_right _ _)
  rw [this] at h1
  cases h1
  exact ⟨h2, h3, h4⟩

theorem listing_proper {nodes : Nodes} {p q : Str} (h : IsDescendant nodes p q) : Proper q := by
  obtain ⟨ns, rest, h1, h2, -, h4, -⟩ := h
  exact ⟨ns ++ rest, h1, by simp [h2], h4⟩

/-- In a listing a path comes after all paths above it. -/
theorem listing_anc {nodes : Nodes} {ns : List Str} (hn : Names ns) {r : List Str}
    (hm : ∀ q, q ∈ r ↔ IsDescendant nodes (render ns) q)
    (hp : ∀ A q B, r = A ++ q :: B → parentPath q = render ns ∨ parentPath q ∈ A) :
    ∀ A q B, r = A ++ q :: B → ∀ a ∈ r, Above a q → a ∈ A := by
  have key : ∀ (k : Nat) (A : List Str) (q : Str) (B : List Str), A.length = k → r = A ++ q :: B →
      ∀ a ∈ r, Above a q → a ∈ A := by
    intro k
    induction k using Nat.strongRecOn with
    | ind k ih =>
      intro A q B hA hr a ha hab
      obtain ⟨ms, m1, m2, hq⟩ := listing_proper ((hm q).1 (by rw [hr]; simp))
      rcases eq_nil_or_snoc ms with rfl | ⟨m, y, rfl⟩
      · exact absurd rfl m2
      have hpar : parentPath q = render m := by rw [hq]; exact (Props.C09_parent_name_join m y m1).1
      obtain ⟨ks, rest, k1, k2, k3, k4⟩ := hab
      have e : m ++ [y] = ks ++ rest := render_inj m1 k1 (hq ▸ k4)
      rcases eq_nil_or_snoc rest with rfl | ⟨rest', z, rfl⟩
      · exact absurd rfl k2
      rw [← List.append_assoc] at e
      have e1 : m = ks ++ rest' := (List.append_inj' e rfl).1
      have hmn : Names m := (names_append.1 m1).1
      obtain ⟨ms', rest'', d1, d2, d3, d4, -⟩ := (hm a).1 ha
      have ens : ns = ms' := render_inj hn (names_append.1 d1).1 d3
      have eks : ks = ms' ++ rest'' := render_inj (names_append.1 k1).1 d1 (k3 ▸ d4)
      rcases hp A q B hr with h | h
      · exfalso
        rw [hpar] at h
        have := render_inj hmn hn h
        rw [e1, eks, ens] at this
        have := congrArg List.length this
        simp only [List.length_append] at this
        have := List.length_pos_iff.2 d2
        omega
      · by_cases hr' : rest' = []
        · subst hr'
          rw [List.append_nil] at e1
          rw [k3, ← e1, ← hpar]; exact h
        · obtain ⟨A1, A2, hA12⟩ := List.append_of_mem h
          have hlt : A1.length < k := by rw [← hA, hA12]; simp
          have hin := ih A1.length hlt A1 (parentPath q) (A2 ++ q :: B) rfl (by rw [hr, hA12]; simp) a ha
            ⟨ks, rest', by rw [← e1]; exact hmn, hr', k3, by rw [hpar, e1]⟩
          rw [hA12]; simp [hin]
  intro A q B; exact key A.length A q B rfl

end Nxt.Exec
