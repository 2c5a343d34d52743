import Verif.Lemmas.Dict
import Verif.Spec.Dirty
/-!
# Lemmas about dependency maps
-/
namespace Nxt.Dirty
open Dict Spec

theorem length_le_of_nodup {α : Type} [DecidableEq α] {a b : List α} (h : a.Nodup) (hs : ∀ x ∈ a, x ∈ b) :
    a.length ≤ b.length := by
  induction a generalizing b with
  | nil => simp
  | cons x a ih =>
    have hx := hs x List.mem_cons_self
    have hnd := List.nodup_cons.1 h
    have := ih hnd.2 (b := b.erase x) (fun y hy => by
      have hne : y ≠ x := by rintro rfl; exact hnd.1 hy
      exact (List.mem_erase_of_ne hne).2 (hs y (List.mem_cons_of_mem _ hy)))
    rw [List.length_erase_of_mem hx] at this
    have := List.length_pos_of_mem hx
    simp only [List.length_cons]
    omega

theorem mem_concerns {m : Dict Str (List Str)} {p q : Str} : q ∈ concerns m p ↔ Depends m p q := by
  unfold concerns Depends
  cases get? p m <;> simp

theorem addNew_spec (seen found tmp : List Str) (hn : tmp.Nodup) (hd : ∀ x ∈ tmp, x ∉ seen) :
    (addNew seen found tmp).Nodup ∧ (∀ x ∈ addNew seen found tmp, x ∉ seen) ∧
    (∀ x, x ∈ addNew seen found tmp ↔ x ∈ tmp ∨ (x ∈ found ∧ x ∉ seen)) := by
  induction found generalizing tmp with
  | nil => simpa [addNew, hn] using hd
  | cons i is ih =>
    rw [addNew]
    by_cases hi : i ∈ seen ++ tmp
    · rw [if_pos hi]
      obtain ⟨h1, h2, h3⟩ := ih tmp hn hd
      refine ⟨h1, h2, fun x => ?_⟩
      rw [h3, List.mem_cons]
      rcases List.mem_append.1 hi with hs | ht
      · constructor
        · rintro (h | h)
          · exact .inl h
          · exact .inr ⟨.inr h.1, h.2⟩
        · rintro (h | ⟨rfl | h, h'⟩)
          · exact .inl h
          · exact absurd hs h'
          · exact .inr ⟨h, h'⟩
      · constructor
        · rintro (h | h)
          · exact .inl h
          · exact .inr ⟨.inr h.1, h.2⟩
        · rintro (h | ⟨rfl | h, h'⟩)
          · exact .inl h
          · exact .inl ht
          · exact .inr ⟨h, h'⟩
    · rw [if_neg hi]
      rw [List.mem_append, not_or] at hi
      obtain ⟨h1, h2, h3⟩ := ih (tmp ++ [i])
        (List.nodup_append.2 ⟨hn, by simp, by rintro a ha b hb rfl; rw [List.mem_singleton.1 hb] at ha; exact hi.2 ha⟩)
        (by
          intro x hx
          rcases List.mem_append.1 hx with hx | hx
          · exact hd x hx
          · rw [List.mem_singleton.1 hx]; exact hi.1)
      refine ⟨h1, h2, fun x => ?_⟩
      rw [h3, List.mem_append, List.mem_singleton, List.mem_cons]
      constructor
      · rintro ((h | rfl) | h)
        · exact .inl h
        · exact .inr ⟨.inl rfl, hi.1⟩
        · exact .inr ⟨.inr h.1, h.2⟩
      · rintro (h | ⟨rfl | h, h'⟩)
        · exact .inl (.inl h)
        · exact .inl (.inr rfl)
        · exact .inr ⟨h, h'⟩

theorem round_spec (m : Dict Str (List Str)) (seen new : List Str) :
    (round m seen new).Nodup ∧ (∀ x ∈ round m seen new, x ∉ seen) ∧
    (∀ x, x ∈ round m seen new ↔ x ∉ seen ∧ ∃ c ∈ new, Depends m c x) := by
  have key : ∀ (new tmp : List Str), tmp.Nodup → (∀ x ∈ tmp, x ∉ seen) →
      let r := new.foldl (fun tmp c => addNew seen (concerns m c) tmp) tmp
      r.Nodup ∧ (∀ x ∈ r, x ∉ seen) ∧ ∀ x, x ∈ r ↔ x ∈ tmp ∨ (x ∉ seen ∧ ∃ c ∈ new, Depends m c x) := by
    intro new
    induction new with
    | nil => intro tmp hn hd; simpa [hn] using hd
    | cons c cs ih =>
      intro tmp hn hd
      obtain ⟨a1, a2, a3⟩ := addNew_spec seen (concerns m c) tmp hn hd
      obtain ⟨b1, b2, b3⟩ := ih _ a1 a2
      refine ⟨b1, b2, fun x => ?_⟩
      rw [List.foldl_cons, b3, a3, mem_concerns]
      simp only [List.mem_cons, exists_eq_or_imp]
      constructor
      · rintro ((h | h) | h)
        · exact .inl h
        · exact .inr ⟨h.2, .inl h.1⟩
        · exact .inr ⟨h.1, .inr h.2⟩
      · rintro (h | ⟨h, h' | h'⟩)
        · exact .inl (.inl h)
        · exact .inl (.inr ⟨h', h⟩)
        · exact .inr ⟨h, h'⟩
  obtain ⟨h1, h2, h3⟩ := key new [] List.nodup_nil (by simp)
  refine ⟨h1, h2, fun x => ?_⟩
  have := h3 x
  rw [round]
  simpa using this

/-- All paths which occur as dependants. -/
def allDeps (m : Dict Str (List Str)) : List Str := m.flatMap Prod.snd

theorem mem_allDeps {m : Dict Str (List Str)} {p q : Str} (h : Depends m p q) : q ∈ allDeps m := by
  obtain ⟨l, h1, h2⟩ := h
  exact List.mem_flatMap.2 ⟨(p, l), mem_of_get? h1, h2⟩

/-- How many entries of `U` are not yet in `seen`. -/
def left (U seen : List Str) : Nat := (U.filter (fun x => x ∉ seen)).length

theorem left_lt {U seen t : List Str} {x : Str} (hx : x ∈ t) (hU : x ∈ U) (hs : x ∉ seen) :
    left U (seen ++ t) < left U seen := by
  unfold left
  have hsub : (U.filter (fun x => x ∉ seen ++ t)).Sublist (U.filter (fun x => x ∉ seen)) := by
    have : U.filter (fun x => x ∉ seen ++ t) = (U.filter (fun x => x ∉ seen)).filter (fun x => x ∉ t) := by
      rw [List.filter_filter]
      refine List.filter_congr (fun a _ => ?_)
      simp [Bool.and_comm]
    rw [this]
    exact List.filter_sublist
  refine Nat.lt_of_le_of_ne hsub.length_le (fun he => ?_)
  have := hsub.eq_of_length he
  have hm : x ∈ U.filter (fun x => x ∉ seen) := List.mem_filter.2 ⟨hU, by simpa using hs⟩
  rw [← this] at hm
  have := (List.mem_filter.1 hm).2
  simp [hx] at this

theorem dirtyLoop_spec (m : Dict Str (List Str)) (p : Str) :
    ∀ fuel seen new, left (allDeps m) seen + 2 ≤ fuel → seen.Nodup →
    (∀ x ∈ seen, Reach m p x) → (∀ x ∈ new, x = p ∨ x ∈ seen) →
    (∀ x y, x = p ∨ x ∈ seen → x ∉ new → Depends m x y → y ∈ seen) →
    ∃ r, dirtyLoop m fuel seen new = some r ∧ seen <+: r ∧ r.Nodup ∧ ∀ x, x ∈ r ↔ Reach m p x := by
  intro fuel
  induction fuel with
  | zero => intro seen new hf; omega
  | succ fuel ih =>
    intro seen new hf hn hr hsub hcl
    rw [dirtyLoop]
    by_cases hnew : new = []
    · subst hnew
      rw [if_pos rfl]
      refine ⟨seen, rfl, List.prefix_refl _, hn, fun x => ⟨hr x, fun h => ?_⟩⟩
      induction h with
      | one h => exact hcl p _ (.inl rfl) (by simp) h
      | more _ h ih => exact hcl _ _ (.inr ih) (by simp) h
    · rw [if_neg hnew]
      obtain ⟨t1, t2, t3⟩ := round_spec m seen new
      generalize round m seen new = t at t1 t2 t3
      have hreach : ∀ x ∈ seen ++ t, Reach m p x := by
        intro x hx
        rcases List.mem_append.1 hx with hx | hx
        · exact hr x hx
        · obtain ⟨_, c, hc, hd⟩ := (t3 x).1 hx
          rcases hsub c hc with rfl | hs
          · exact .one hd
          · exact .more (hr c hs) hd
      have hnod : (seen ++ t).Nodup := List.nodup_append.2 ⟨hn, t1, by rintro a ha b hb rfl; exact t2 a hb ha⟩
      have hclosed : ∀ x y, x = p ∨ x ∈ seen ++ t → x ∉ t → Depends m x y → y ∈ seen ++ t := by
        intro x y hx hxt hd
        have hx' : x = p ∨ x ∈ seen := by
          rcases hx with h | h
          · exact .inl h
          · rcases List.mem_append.1 h with h | h
            · exact .inr h
            · exact absurd h hxt
        by_cases hxn : x ∈ new
        · by_cases hy : y ∈ seen
          · exact List.mem_append_left _ hy
          · exact List.mem_append_right _ ((t3 y).2 ⟨hy, x, hxn, hd⟩)
        · exact List.mem_append_left _ (hcl x y hx' hxn hd)
      by_cases ht : t = []
      · subst ht
        obtain ⟨r, h1, h2, h3⟩ : ∃ r, dirtyLoop m fuel (seen ++ []) [] = some r ∧ seen <+: r ∧
            r.Nodup ∧ ∀ x, x ∈ r ↔ Reach m p x := by
          cases fuel with
          | zero => omega
          | succ fuel =>
            rw [dirtyLoop, if_pos rfl]
            refine ⟨seen ++ [], rfl, List.prefix_append _ _, hnod, fun x => ⟨hreach x, fun h => ?_⟩⟩
            induction h with
            | one h => exact hclosed p _ (.inl rfl) (by simp) h
            | more _ h ih => exact hclosed _ _ (.inr ih) (by simp) h
        exact ⟨r, h1, h2, h3⟩
      · obtain ⟨x, hx⟩ := List.exists_mem_of_ne_nil _ ht
        obtain ⟨h1, c, hc, hd⟩ := (t3 x).1 hx
        have hlt := left_lt hx (mem_allDeps hd) h1
        obtain ⟨r, g1, g2, g3⟩ := ih (seen ++ t) t (by omega) hnod hreach
          (fun x hx => .inr (List.mem_append_right _ hx)) hclosed
        exact ⟨r, g1, List.IsPrefix.trans (List.prefix_append _ _) g2, g3⟩

/-! ### Updates -/

/-- Every list in the map is free of duplicates. -/
def NodupMap (m : Dict Str (List Str)) : Prop := Ok m ∧ ∀ p l, get? p m = some l → l.Nodup

theorem concerns_extend (same : Str → Str → Bool) (m : Dict Str (List Str)) (p c a : Str) :
    concerns (extend same m p c) a =
      if a = p ∧ p ≠ Path.WORLD ∧ c ≠ Path.WORLD ∧ same c p = false ∧ c ∉ concerns m p then concerns m p ++ [c]
      else concerns m a := by
  unfold extend
  by_cases hw : p = Path.WORLD ∨ c = Path.WORLD
  · rw [if_pos hw, if_neg]
    rintro ⟨-, h1, h2, -⟩
    exact hw.elim h1 h2
  · rw [if_neg hw]
    rw [not_or] at hw
    simp only
    have hbase : ∀ a, concerns (if concerns m p = [] then Dict.set p (concerns m p) m else m) a = concerns m a := by
      intro a
      split
      · rename_i he
        unfold concerns
        rw [get?_set]
        split
        · rename_i hap; subst hap; rfl
        · rfl
      · rfl
    by_cases hc : (!same c p) = true ∧ c ∉ concerns m p
    · rw [if_pos hc]
      have hs : same c p = false := by simpa using hc.1
      show (get? a (Dict.set p _ _)).getD [] = _
      rw [get?_set]
      by_cases hap : a = p
      · rw [if_pos hap, if_pos ⟨hap, hw.1, hw.2, hs, hc.2⟩]; rfl
      · rw [if_neg hap]
        show concerns _ a = _
        rw [hbase a, if_neg (fun h => hap h.1)]
    · rw [if_neg hc, hbase a, if_neg]
      rintro ⟨-, -, -, h3, h4⟩
      exact hc ⟨by simp [h3], h4⟩

theorem ok_extend (same : Str → Str → Bool) {m : Dict Str (List Str)} (h : Ok m) (p c : Str) :
    Ok (extend same m p c) := by
  unfold extend
  split
  · exact h
  · simp only
    have h1 : Ok (if concerns m p = [] then Dict.set p (concerns m p) m else m) := by
      split
      · exact ok_set h _ _
      · exact h
    split
    · exact ok_set h1 _ _
    · exact h1

theorem get?_mapVals (m : Dict Str (List Str)) (f : List Str → List Str) (a : Str) :
    get? a (m.map (fun kv => (kv.1, f kv.2))) = (get? a m).map f := by
  induction m with
  | nil => rfl
  | cons e m ih =>
    obtain ⟨k, v⟩ := e
    simp only [List.map_cons, get?]
    split
    · rfl
    · exact ih

theorem ok_remove {m : Dict Str (List Str)} (h : Ok m) (p : Str) : Ok (remove m p) := by
  unfold remove
  split
  · exact h
  · have h1 : Ok (if p ∈ keys m then erase p m else m) := by
      split
      · exact ok_erase h _
      · exact h
    have : ∀ m : Dict Str (List Str), keys (m.map (fun kv => (kv.1, if p ∈ kv.2 then kv.2.erase p else kv.2))) = keys m := by
      intro m
      induction m with
      | nil => rfl
      | cons e m ih => unfold keys at ih ⊢; simp only [List.map_cons, ih]
    unfold Ok
    rw [this]
    exact h1

theorem concerns_remove {m : Dict Str (List Str)} (h : NodupMap m) (p a : Str) (hp : p ≠ Path.WORLD) :
    concerns (remove m p) a = if a = p then [] else (concerns m a).filter (fun x => x ≠ p) := by
  unfold remove
  rw [if_neg hp]
  unfold concerns
  rw [get?_mapVals _ (fun l => if p ∈ l then l.erase p else l)]
  have hget : get? a (if p ∈ keys m then erase p m else m) = if a = p then none else get? a m := by
    split
    · rw [get?_erase h.1]
    · rename_i hk
      split
      · rename_i hap; rw [hap, get?_eq_none.2 hk]
      · rfl
  rw [hget]
  split
  · rfl
  · cases hg : get? a m with
    | none => rfl
    | some l =>
      have hn := h.2 a l hg
      simp only [Option.map_some, Option.getD_some]
      split
      · rw [hn.erase_eq_filter]
        refine List.filter_congr (fun x _ => ?_)
        simp [bne_iff_ne]
        by_cases hx : x = p <;> simp [hx]
      · rename_i hnp
        rw [List.filter_eq_self.2]
        intro x hx
        simp only [ne_eq, decide_eq_true_eq]
        rintro rfl
        exact hnp hx

theorem nodup_concerns {m : Dict Str (List Str)} : NodupMap m ↔ Ok m ∧ ∀ p, (concerns m p).Nodup := by
  unfold NodupMap concerns
  refine and_congr Iff.rfl ⟨fun h p => ?_, fun h p l hl => ?_⟩
  · cases hg : get? p m with
    | none => simp
    | some l => exact h p l hg
  · have := h p
    rwa [hl] at this

theorem nodupMap_extend (same : Str → Str → Bool) {m : Dict Str (List Str)} (h : NodupMap m) (p c : Str) :
    NodupMap (extend same m p c) := by
  rw [nodup_concerns] at h ⊢
  refine ⟨ok_extend same h.1 p c, fun a => ?_⟩
  rw [concerns_extend]
  split
  · rename_i hc
    exact List.nodup_append.2 ⟨h.2 p, by simp, by rintro x hx y hy rfl; rw [List.mem_singleton.1 hy] at hx; exact hc.2.2.2.2 hx⟩
  · exact h.2 a

theorem nodupMap_remove {m : Dict Str (List Str)} (h : NodupMap m) (p : Str) : NodupMap (remove m p) := by
  have h' := nodup_concerns.1 h
  rw [nodup_concerns]
  refine ⟨ok_remove h.1 p, fun a => ?_⟩
  by_cases hp : p = Path.WORLD
  · unfold remove; rw [if_pos hp]; exact h'.2 a
  · rw [concerns_remove h p a hp]
    split
    · simp
    · exact (h'.2 a).filter _

end Nxt.Dirty
