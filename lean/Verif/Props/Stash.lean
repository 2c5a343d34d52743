import Verif.Model.Stash
import Verif.Lemmas.Dict
/-!
# C164: the attributes of all nodes of a layer as plain data
-/
namespace Nxt.Spec

/-- The class sees the value `v` under the name `k`: some table gives it, and no table before that has the name. -/
def Sees {V : Type} (n : List (Dict Str V)) (k : Str) (v : V) : Prop :=
  ∃ above t below, n = above ++ t :: below ∧ Dict.get? k t = some v ∧ ∀ u ∈ above, k ∉ Dict.keys u

end Nxt.Spec

namespace Nxt.Props
open Spec Dict Stash

namespace Stashed
variable {V : Type}

theorem sees_iff (n : List (Dict Str V)) (k : Str) (v : V) : getattr n k = some v ↔ Sees n k v := by
  unfold getattr
  rw [List.findSome?_eq_some_iff]
  constructor
  · rintro ⟨a, t, b, rfl, h, hn⟩
    exact ⟨a, t, b, rfl, h, fun u hu => get?_eq_none.1 (hn u hu)⟩
  · rintro ⟨a, t, b, rfl, h, hn⟩
    exact ⟨a, t, b, rfl, h, fun u hu => get?_eq_none.2 (hn u hu)⟩

theorem mem_dir (n : List (Dict Str V)) (k : Str) : k ∈ dir n ↔ ∃ v, getattr n k = some v := by
  unfold dir getattr
  rw [List.mem_mergeSort, List.mem_eraseDups, List.mem_flatMap, ← Option.isSome_iff_exists, List.findSome?_isSome_iff]
  simp only [get?_isSome]

theorem fold (B : List Str) (n : List (Dict Str V)) (ks : List Str) (d : Dict Str V)
    (h : ∀ k ∈ ks, ∃ v, getattr n k = some v) :
    ∃ d', ks.foldlM (step B n) d = some d' ∧
      ∀ k, get? k d' = if k ∈ ks ∧ k ∉ B then getattr n k else get? k d := by
  induction ks generalizing d with
  | nil => exact ⟨d, rfl, fun k => by simp⟩
  | cons a ks ih =>
    obtain ⟨v, hv⟩ := h a List.mem_cons_self
    have hr : ∀ k ∈ ks, ∃ v, getattr n k = some v := fun k hk => h k (List.mem_cons_of_mem _ hk)
    rw [List.foldlM_cons]
    by_cases ha : a ∈ B
    · obtain ⟨d', e, hd⟩ := ih d hr
      refine ⟨d', by simp only [step, if_pos ha]; exact e, fun k => ?_⟩
      rw [hd]
      by_cases hk : k = a
      · subst hk; simp [ha]
      · simp [hk]
    · obtain ⟨d', e, hd⟩ := ih (set a v d) hr
      refine ⟨d', by simp only [step, if_neg ha, hv]; exact e, fun k => ?_⟩
      rw [hd, get?_set]
      by_cases hk : k = a
      · subst hk; simp [ha, hv]
      · simp [hk, Ne.symm hk]

theorem fold_keys (B : List Str) (n : List (Dict Str V)) (ks : List Str) (d d' : Dict Str V) (hk : ks.Nodup)
    (hd : ∀ k ∈ ks, k ∉ keys d) (h : ks.foldlM (step B n) d = some d') :
    keys d' = keys d ++ ks.filter (fun k => decide (k ∉ B)) := by
  induction ks generalizing d with
  | nil => cases h; simp
  | cons a ks ih =>
    rw [List.nodup_cons] at hk
    rw [List.foldlM_cons] at h
    by_cases ha : a ∈ B
    · simp only [step, if_pos ha] at h
      rw [ih d hk.2 (fun k hk => hd k (List.mem_cons_of_mem _ hk)) h, List.filter_cons_of_neg (by simp [ha])]
    · cases hg : getattr n a with
      | none => simp only [step, if_neg ha, hg] at h; cases h
      | some v =>
        simp only [step, if_neg ha, hg] at h
        have e := set_of_not_mem (v := v) (hd a List.mem_cons_self)
        rw [ih (set a v d) hk.2 ?_ h, e, keys_append, List.filter_cons_of_pos (by simp [ha]), List.append_assoc]
        · rfl
        · intro k hk' hm
          rw [e, keys_append, List.mem_append] at hm
          rcases hm with hm | hm
          · exact hd k (List.mem_cons_of_mem _ hk') hm
          · rw [List.mem_singleton.1 hm] at hk'
            exact hk.1 hk'

theorem nodup_eraseDups : ∀ (l : List Str), l.eraseDups.Nodup
  | [] => List.nodup_nil
  | a :: l => by
    rw [List.eraseDups_cons, List.nodup_cons]
    exact ⟨by simp, nodup_eraseDups _⟩
termination_by l => l.length
decreasing_by
  simp only [List.length_cons]
  exact Nat.lt_succ_of_le (List.length_filter_le _ _)

theorem table (B : List Str) (l : List (Str × List (Dict Str V))) (hl : (l.map Prod.fst).Nodup)
    (acc : Dict Str (Dict Str V)) (hs : ∀ n : List (Dict Str V), ∃ d, stashNode B n = some d) :
    ∃ D, l.foldlM (fun comp e => (stashNode B e.2).map (fun d => set e.1 d comp)) acc = some D ∧
      ∀ p, get? p D = match get? p l with | some n => stashNode B n | none => get? p acc := by
  induction l generalizing acc with
  | nil => exact ⟨acc, rfl, fun p => rfl⟩
  | cons e l ih =>
    obtain ⟨d, hd⟩ := hs e.2
    rw [List.map_cons, List.nodup_cons] at hl
    obtain ⟨D, e1, h⟩ := ih hl.2 (set e.1 d acc)
    refine ⟨D, by rw [List.foldlM_cons, hd]; exact e1, fun p => ?_⟩
    rw [h, show get? p (e :: l) = if e.1 = p then some e.2 else get? p l from rfl]
    by_cases hp : e.1 = p
    · subst hp
      rw [if_pos rfl, get?_eq_none.2 hl.1]
      simp only [get?_set, if_true, hd]
    · rw [if_neg hp]
      cases get? p l with
      | some n => rfl
      | none => simp only [get?_set]; simp [hp, Ne.symm hp]

def exB : List Str := ["__doc__".toList]

/-- The node has `a` itself, its base class has `a` and `b`; the class of all classes has `__doc__`. -/
def exNode : List (Dict Str Nat) := [[("a".toList, 1)], [("b".toList, 2), ("a".toList, 3)], [("__doc__".toList, 4)]]

def exNodes : Dict Str (List (Dict Str Nat)) := [("/".toList, [[("w".toList, 9)]]), ("/n".toList, exNode)]

end Stashed

/-- C164: stashing a node never fails; the data has just the names which are not built in, each with the value
the node sees. -/
theorem C164_node {V : Type} (B : List Str) (n : List (Dict Str V)) :
    ∃ d, stashNode B n = some d ∧ ∀ k v, get? k d = some v ↔ k ∉ B ∧ Sees n k v := by
  obtain ⟨d, e, h⟩ := Stashed.fold B n (dir n) [] (fun k hk => (Stashed.mem_dir n k).1 hk)
  refine ⟨d, e, fun k v => ?_⟩
  rw [h, ← Stashed.sees_iff]
  have hm := Stashed.mem_dir n k
  by_cases hk : k ∈ B
  · simp [hk, get?]
  · cases hg : getattr n k with
    | none => simp [get?]
    | some w => rw [if_pos ⟨hm.2 ⟨w, hg⟩, hk⟩]; simp [hk]

example : Sees Stashed.exNode "a".toList 1 ∧ "a".toList ∉ Stashed.exB ∧ ¬ Sees Stashed.exNode "a".toList 3 :=
  ⟨(Stashed.sees_iff _ _ _).1 (by decide), by decide, fun h => absurd ((Stashed.sees_iff _ _ _).2 h) (by decide)⟩

/-- C164: the names of a stashed node are sorted, each is there once. -/
theorem C164_order {V : Type} (B : List Str) (n : List (Dict Str V)) (d : Dict Str V) (h : stashNode B n = some d) :
    (keys d).Pairwise (fun a b => strLe a b = true) ∧ (keys d).Nodup := by
  have hn : (dir n).Nodup := (List.mergeSort_perm _ _).nodup_iff.2 (Stashed.nodup_eraseDups _)
  have e := Stashed.fold_keys B n (dir n) [] d hn (fun _ _ hk => by cases hk) h
  rw [e, keys_nil, List.nil_append]
  exact ⟨(List.pairwise_mergeSort strLe_trans strLe_total _).sublist List.filter_sublist, hn.filter _⟩

example : ∃ d, stashNode Stashed.exB Stashed.exNode = some d ∧ "a".toList ∈ keys d ∧ "b".toList ∈ keys d := by
  obtain ⟨d, e, h⟩ := C164_node Stashed.exB Stashed.exNode
  exact ⟨d, e, get?_isSome.1 (by rw [(h _ 1).2 ⟨by decide, (Stashed.sees_iff _ _ _).1 (by decide)⟩]; rfl),
    get?_isSome.1 (by rw [(h _ 2).2 ⟨by decide, (Stashed.sees_iff _ _ _).1 (by decide)⟩]; rfl)⟩

/-- C164: stashing a layer never fails; it has the data of every node but the world, under the path of the node,
and nothing else, when the path of the world is the one object `WORLD`. -/
theorem C164_layer_partial {V : Type} (B : List Str) (isWorld : Str → Bool) (hw : ∀ p, isWorld p = true ↔ p = ['/'])
    (nodes : Dict Str (List (Dict Str V))) (hn : Ok nodes) :
    ∃ D, stashData B isWorld nodes = some D ∧
      ∀ p, p ∈ keys D ↔ p ∈ keys nodes ∧ p ≠ ['/'] := by
  have hs : ∀ n : List (Dict Str V), ∃ d, stashNode B n = some d := fun n =>
    let ⟨d, e, _⟩ := C164_node B n
    ⟨d, e⟩
  obtain ⟨D, e, h⟩ := Stashed.table B (worldTable isWorld nodes)
    (List.Sublist.nodup (List.Sublist.map _ List.filter_sublist) hn) [] hs
  refine ⟨D, e, fun p => ?_⟩
  have hm : p ∈ keys (worldTable isWorld nodes) ↔ p ∈ keys nodes ∧ p ≠ ['/'] := by
    rw [mem_keys, mem_keys]
    unfold worldTable
    constructor
    · rintro ⟨v, hv⟩
      have := List.mem_filter.1 hv
      refine ⟨⟨v, this.1⟩, fun hp => ?_⟩
      have h2 := (hw p).2 hp
      simp [h2] at this
    · rintro ⟨⟨v, hv⟩, hp⟩
      refine ⟨v, List.mem_filter.2 ⟨hv, ?_⟩⟩
      cases hb : isWorld p with
      | false => simp [hb]
      | true => exact absurd ((hw p).1 hb) hp
  rw [← hm, ← get?_isSome, ← get?_isSome, h]
  cases get? p (worldTable isWorld nodes) with
  | none => simp [get?]
  | some n =>
    obtain ⟨d, hd⟩ := hs n
    simp [hd]

/-- C164: and what is kept under a path are the names and values the node there sees. -/
theorem C164_values {V : Type} (B : List Str) (isWorld : Str → Bool)
    (nodes : Dict Str (List (Dict Str V))) (hn : Ok nodes) (D : Dict Str (Dict Str V))
    (hD : stashData B isWorld nodes = some D) (p : Str) (d : Dict Str V) (hp : get? p D = some d) :
    ∃ n, get? p nodes = some n ∧ ∀ k v, get? k d = some v ↔ k ∉ B ∧ Sees n k v := by
  have hs : ∀ n : List (Dict Str V), ∃ d, stashNode B n = some d := fun n =>
    let ⟨d, e, _⟩ := C164_node B n
    ⟨d, e⟩
  obtain ⟨D', e, h⟩ := Stashed.table B (worldTable isWorld nodes)
    (List.Sublist.nodup (List.Sublist.map _ List.filter_sublist) hn) [] hs
  have : D' = D := Option.some.inj (e.symm.trans hD)
  subst this
  rw [h] at hp
  cases hg : get? p (worldTable isWorld nodes) with
  | none => rw [hg] at hp; cases hp
  | some n =>
    rw [hg] at hp
    refine ⟨n, get?_of_mem hn (List.mem_filter.1 (mem_of_get? hg)).1, ?_⟩
    obtain ⟨d', e', h'⟩ := C164_node B n
    have : d' = d := Option.some.inj (e'.symm.trans hp)
    exact this ▸ h'

example : Ok Stashed.exNodes ∧ ∃ D, stashData Stashed.exB (fun p => p == ['/']) Stashed.exNodes = some D ∧
    "/n".toList ∈ keys D ∧ "/".toList ∉ keys D := by
  refine ⟨by decide, ?_⟩
  obtain ⟨D, e, h⟩ := C164_layer_partial Stashed.exB (fun p => p == ['/']) (by simp) Stashed.exNodes (by decide)
  exact ⟨D, e, (h _).2 (by decide), fun hc => ((h _).1 hc).2 rfl⟩

/-- C164: a world kept under an equal text which is another object is stashed like a descendant. -/
theorem C164_identity_violation : ∃ D, stashData Stashed.exB (fun _ => false) Stashed.exNodes = some D ∧
    "/".toList ∈ keys D := by
  have hs : ∀ n : List (Dict Str Nat), ∃ d, stashNode Stashed.exB n = some d := fun n =>
    let ⟨d, e, _⟩ := C164_node Stashed.exB n
    ⟨d, e⟩
  obtain ⟨D, e, h⟩ := Stashed.table Stashed.exB (worldTable (fun _ => false) Stashed.exNodes) (by decide) [] hs
  refine ⟨D, e, ?_⟩
  rw [← get?_isSome, h]
  obtain ⟨d, hd⟩ := hs [[("w".toList, 9)]]
  have : get? "/".toList (worldTable (fun _ => false) Stashed.exNodes) = some [[("w".toList, 9)]] := by decide
  rw [this]
  exact Option.isSome_iff_exists.2 ⟨d, hd⟩

end Nxt.Props
