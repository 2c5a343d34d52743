import Verif.Spec.Legacy
import Verif.Lemmas.Legacy
import Verif.Lemmas.Path
/-!
# Lemmas on converted data
-/
namespace Nxt.Legacy
open Dict Layer Spec

/-! ### Reordering -/

theorem reorder_spec {V : Type} (order : List Str) (d : Dict Str V) (hd : Ok d) :
    Ok (reorder order d) ∧ ∀ k, get? k (reorder order d) = get? k d := by
  unfold reorder
  induction order generalizing d with
  | nil => exact ⟨hd, fun _ => rfl⟩
  | cons x order ih =>
    rw [List.foldl_cons]
    cases hx : get? x d with
    | none => simp only; exact ih d hd
    | some v =>
      simp only
      obtain ⟨h1, h2⟩ := ih (Dict.set x v (erase x d)) (ok_set (ok_erase hd x) x v)
      refine ⟨h1, fun k => ?_⟩
      rw [h2 k, get?_set]
      by_cases hk : k = x
      · rw [if_pos hk, hk, hx]
      · rw [if_neg hk, get?_erase hd, if_neg hk]

theorem keys_deepPairs (order : List Str) (d : List (Str × Val)) : keys (deepPairs order d) = keys d := by
  induction d with
  | nil => rw [deepPairs]
  | cons e d ih =>
    obtain ⟨k, v⟩ := e
    rw [deepPairs]
    unfold keys at ih ⊢
    rw [List.map_cons, List.map_cons, ih]

theorem get?_deepPairs (order : List Str) (d : List (Str × Val)) (k : Str) :
    get? k (deepPairs order d) = (get? k d).map (deepVal order) := by
  induction d with
  | nil => rw [deepPairs]; rfl
  | cons e d ih =>
    obtain ⟨x, v⟩ := e
    rw [deepPairs, get?, get?]
    split
    · rfl
    · exact ih

theorem deepItems_get (order : List Str) (l : List Val) (i : Nat) :
    (deepItems order l)[i]? = (l[i]?).map (fun v => match v with | .dict _ => deepVal order v | v => v) := by
  induction l generalizing i with
  | nil => rw [deepItems]; simp
  | cons v l ih =>
    cases v <;> rw [deepItems] <;> first | (cases i <;> simp [ih, deepVal]) | skip
    all_goals simp

theorem wfPairs_mem {d : List (Str × Val)} (h : wfPairs d) {k : Str} {v : Val} (hv : get? k d = some v) : wf v := by
  induction d with
  | nil => cases hv
  | cons e d ih =>
    obtain ⟨x, w⟩ := e
    rw [wfPairs] at h
    rw [get?] at hv
    split at hv
    · cases hv; exact h.1
    · exact ih h.2 hv

theorem wfList_mem {l : List Val} (h : wfList l) {i : Nat} {v : Val} (hv : l[i]? = some v) : wf v := by
  induction l generalizing i with
  | nil => simp at hv
  | cons w l ih =>
    rw [wfList] at h
    cases i with
    | zero => simp at hv; subst hv; exact h.1
    | succ i => exact ih h.2 (by simpa using hv)

theorem shape_deepVal (order : List Str) (v : Val) : shape (deepVal order v) = shape v := by
  cases v <;> rw [deepVal]
  · rename_i l
    simp only [shape]
    have : ∀ l : List Val, (deepItems order l).length = l.length := by
      intro l
      induction l with
      | nil => rw [deepItems]
      | cons v l ih => cases v <;> rw [deepItems] <;> simp [ih]
    congr 1
    apply List.ext_getElem?
    intro i
    simp only [List.getElem?_map, deepItems_get]
    cases l[i]? <;> simp
  · rfl

theorem deepVal_same (order : List Str) (v : Val) (h : wf v) : SameJson (deepVal order v) v := by
  intro path
  induction path generalizing v with
  | nil => simp only [atPath, Option.map_some, shape_deepVal]
  | cons s ss ih =>
    rw [atPath, atPath]
    cases s with
    | key k =>
      cases v <;> first | (simp only [deepVal, stepVal]; done) | skip
      case dict d =>
        rw [wf] at h
        rw [deepVal]
        simp only [stepVal]
        have hok : Ok (deepPairs order d) := by unfold Ok; rw [keys_deepPairs]; exact h.1
        rw [(reorder_spec order _ hok).2 k, get?_deepPairs]
        cases hg : get? k d with
        | none => rfl
        | some w => exact ih w (wfPairs_mem h.2 hg)
    | idx i =>
      cases v <;> first | (simp only [deepVal, stepVal]; done) | skip
      case list l =>
        rw [wf] at h
        rw [deepVal]
        simp only [stepVal]
        rw [deepItems_get]
        cases hg : l[i]? with
        | none => rfl
        | some w =>
          cases w <;> first | rfl | skip
          exact ih _ (wfList_mem h hg)

/-! ### Dropping -/

theorem foldl_erase {V : Type} (ps : List Str) (d : Dict Str V) (hd : Ok d) :
    Ok (ps.foldl (fun ns p => erase p ns) d) ∧
    ∀ k, get? k (ps.foldl (fun ns p => erase p ns) d) = if k ∈ ps then none else get? k d := by
  induction ps generalizing d with
  | nil => exact ⟨hd, fun k => by simp⟩
  | cons p ps ih =>
    rw [List.foldl_cons]
    obtain ⟨h1, h2⟩ := ih (erase p d) (ok_erase hd p)
    refine ⟨h1, fun k => ?_⟩
    rw [h2 k, get?_erase hd]
    by_cases hk : k ∈ ps
    · simp [hk]
    · by_cases hp : k = p <;> simp [hk, hp]

theorem foldl_filter {A : Type} (f : A → Bool) (l r : List A) :
    l.foldl (fun r p => if f p then r ++ [p] else r) r = r ++ l.filter f := by
  induction l generalizing r with
  | nil => simp
  | cons a l ih =>
    rw [List.foldl_cons, ih, List.filter_cons]
    split <;> simp

/-! ### Texts of namespaces -/

theorem split_slashed (ns : List Str) (h : ∀ n ∈ ns, '/' ∉ n) : Py.split '/' (slashed ns) = [] :: ns := by
  cases ns with
  | nil => rfl
  | cons n ns =>
    have aux : ∀ (n : Str) (ns : List Str), '/' ∉ n → (∀ m ∈ ns, '/' ∉ m) →
        Py.split '/' (n ++ slashed ns) = n :: ns := by
      intro n ns
      induction ns generalizing n with
      | nil => intro hn _; rw [slashed, List.append_nil, Py.split_of_not_mem hn]
      | cons m ns ih =>
        intro hn hns
        rw [slashed, Py.split_append_sep hn, ih m (hns m (by simp)) (fun x hx => hns x (by simp [hx]))]
    rw [slashed]
    show Py.split '/' ([] ++ '/' :: (n ++ slashed ns)) = _
    rw [Py.split_append_sep (by simp), aux n ns (h n (by simp)) (fun m hm => h m (by simp [hm]))]

theorem slashed_inj {a b : List Str} (ha : ∀ n ∈ a, '/' ∉ n) (hb : ∀ n ∈ b, '/' ∉ n)
    (h : slashed a = slashed b) : a = b := by
  have := congrArg (Py.split '/') h
  rw [split_slashed a ha, split_slashed b hb] at this
  exact List.tail_eq_of_cons_eq this

theorem slashed_append (a b : List Str) : slashed (a ++ b) = slashed a ++ slashed b := by
  induction a with
  | nil => rfl
  | cons n a ih => simp [slashed, ih]

theorem slashed_snoc (a : List Str) (n : Str) : slashed (a ++ [n]) = slashed a ++ ['/'] ++ n := by
  rw [slashed_append]; simp [slashed]

/-! ### Unpacking -/

theorem at_noSlash {l : List LNode} {ns : List Str} {m : LNode} (hg : GoodTree l) (h : At l ns m) :
    ∀ n ∈ ns, '/' ∉ n := by
  induction h with
  | here hn =>
    cases hg with
    | mk _ h2 _ => intro x hx; rw [List.mem_singleton] at hx; rw [hx]; exact h2 _ hn
  | under hn _ ih =>
    cases hg with
    | mk _ h2 h3 =>
      intro x hx
      rcases List.mem_cons.1 hx with rfl | hx
      · exact h2 _ hn
      · exact ih (h3 _ hn) x hx

theorem at_cons {n : LNode} {l : List LNode} {ns : List Str} {m : LNode} (h : At (n :: l) ns m) :
    At [n] ns m ∨ At l ns m := by
  cases h with
  | here hn =>
    rcases List.mem_cons.1 hn with rfl | hn
    · exact Or.inl (At.here (by simp))
    · exact Or.inr (At.here hn)
  | under hn h =>
    rcases List.mem_cons.1 hn with rfl | hn
    · exact Or.inl (At.under (by simp) h)
    · exact Or.inr (At.under hn h)

theorem at_head {l : List LNode} {ns : List Str} {m : LNode} (h : At l ns m) :
    ∃ n ∈ l, ∃ r, ns = lname n :: r := by
  cases h with
  | here hn => exact ⟨_, hn, _, rfl⟩
  | under hn _ => exact ⟨_, hn, _, rfl⟩

/-- What unpacking does to a table: `W` tells the namespaces written. -/
def Writes (starts : List Str) (P : List Str) (t t' : Dict Str (Dict Str Val)) (l : List LNode) : Prop :=
  (Ok t → Ok t') ∧
  (∀ path, (∀ ns m, At l ns m → path ≠ slashed (P ++ ns)) → get? path t' = get? path t) ∧
  (∀ ns m, At l ns m → get? (slashed (P ++ ns)) t' = some (flatData starts (slashed (P ++ ns)) m))

mutual
theorem unpackNode_spec (starts : List Str) (P : List Str) (hP : ∀ n ∈ P, '/' ∉ n)
    (t : Dict Str (Dict Str Val)) (n : LNode) (hg : GoodTree [n]) :
    Writes starts P t (unpackNode starts (slashed P ++ ['/']) t n) [n] := by
  cases n with
  | mk name w ex inst en comp comm att ord children =>
    have hg' : GoodTree children := by
      cases hg with
      | mk _ _ h3 => exact h3 _ (List.mem_singleton.2 rfl)
    have hname : '/' ∉ name := by
      cases hg with
      | mk _ h2 _ => exact h2 (.mk name w ex inst en comp comm att ord children) (by simp)
    have hP' : ∀ x ∈ P ++ [name], '/' ∉ x := by
      intro x hx
      rw [List.mem_append, List.mem_singleton] at hx
      rcases hx with hx | rfl
      · exact hP x hx
      · exact hname
    have hpath : slashed P ++ ['/'] ++ name = slashed (P ++ [name]) := (slashed_snoc P name).symm
    rw [unpackNode]
    rw [hpath]
    obtain ⟨h1, h2, h3⟩ := unpackNodes_spec starts (P ++ [name]) hP'
      (Dict.set (slashed (P ++ [name])) (flatData starts (slashed (P ++ [name]))
        (.mk name w ex inst en comp comm att ord children)) t) children hg'
    have hne : ∀ ns m, At children ns m → slashed (P ++ [name]) ≠ slashed (P ++ [name] ++ ns) := by
      intro ns m ha he
      have hns := at_noSlash hg' ha
      have := slashed_inj hP' (by
        intro x hx
        rw [List.mem_append] at hx
        rcases hx with hx | hx
        · exact hP' x hx
        · exact hns x hx) he
      have hl := congrArg List.length this
      obtain ⟨_, _, r, hr⟩ := at_head ha
      rw [hr] at hl
      simp at hl
    refine ⟨fun h => h1 (ok_set h _ _), ?_, ?_⟩
    · intro path hp
      rw [h2 path, get?_set, if_neg]
      · exact hp [name] _ (At.here (List.mem_singleton.2 rfl))
      · intro ns m ha
        rw [List.append_assoc]
        exact hp (name :: ns) m (At.under (List.mem_singleton.2 rfl) ha)
    · intro ns m ha
      cases ha with
      | here hm =>
        rw [List.mem_singleton] at hm
        subst hm
        show get? (slashed (P ++ [name])) _ = some (flatData starts (slashed (P ++ [name])) _)
        rw [h2 _ hne, get?_set, if_pos rfl]
      | under hm ha =>
        rw [List.mem_singleton] at hm
        subst hm
        have := h3 _ m ha
        rw [List.append_assoc] at this
        exact this
theorem unpackNodes_spec (starts : List Str) (P : List Str) (hP : ∀ n ∈ P, '/' ∉ n)
    (t : Dict Str (Dict Str Val)) (l : List LNode) (hg : GoodTree l) :
    Writes starts P t (unpackNodes starts (slashed P ++ ['/']) t l) l := by
  cases l with
  | nil =>
    rw [unpackNodes]
    exact ⟨id, fun _ _ => rfl, fun ns m h => by obtain ⟨n, hn, _⟩ := at_head h; cases hn⟩
  | cons n l =>
    have hgn : GoodTree [n] := by
      cases hg with
      | mk h1 h2 h3 =>
        exact GoodTree.mk (by simp) (fun x hx => h2 x (by rw [List.mem_singleton] at hx; simp [hx]))
          (fun x hx => h3 x (by rw [List.mem_singleton] at hx; simp [hx]))
    have hgl : GoodTree l := by
      cases hg with
      | mk h1 h2 h3 =>
        exact GoodTree.mk (List.nodup_cons.1 h1).2 (fun x hx => h2 x (by simp [hx]))
          (fun x hx => h3 x (by simp [hx]))
    have hdist : ∀ x ∈ l, lname n ≠ lname x := by
      cases hg with
      | mk h1 _ _ =>
        intro x hx he
        exact (List.nodup_cons.1 h1).1 (List.mem_map.2 ⟨x, hx, he.symm⟩)
    rw [unpackNodes]
    obtain ⟨a1, a2, a3⟩ := unpackNode_spec starts P hP t n hgn
    obtain ⟨b1, b2, b3⟩ := unpackNodes_spec starts P hP (unpackNode starts (slashed P ++ ['/']) t n) l hgl
    refine ⟨fun h => b1 (a1 h), ?_, ?_⟩
    · intro path hp
      rw [b2 path, a2 path]
      · intro ns m ha
        apply hp ns m
        cases ha with
        | here hm => rw [List.mem_singleton] at hm; subst hm; exact At.here (by simp)
        | under hm ha => rw [List.mem_singleton] at hm; subst hm; exact At.under (by simp) ha
      · intro ns m ha
        apply hp ns m
        cases ha with
        | here hm => exact At.here (by simp [hm])
        | under hm ha => exact At.under (by simp [hm]) ha
    · intro ns m ha
      rcases at_cons ha with ha | ha
      · rw [b2, a3 ns m ha]
        intro ns' m' ha' he
        have e := slashed_inj (by
          intro x hx
          rw [List.mem_append] at hx
          rcases hx with hx | hx
          · exact hP x hx
          · exact at_noSlash hgn ha x hx) (by
          intro x hx
          rw [List.mem_append] at hx
          rcases hx with hx | hx
          · exact hP x hx
          · exact at_noSlash hgl ha' x hx) he
        have e' := List.append_cancel_left e
        obtain ⟨x, hx, r, hr⟩ := at_head ha
        obtain ⟨y, hy, r', hr'⟩ := at_head ha'
        rw [List.mem_singleton] at hx
        subst hx
        rw [hr, hr'] at e'
        injection e' with e1 _
        exact hdist y hy e1
      · exact b3 ns m ha
end

end Nxt.Legacy
