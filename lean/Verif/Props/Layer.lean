import Verif.Lemmas.Layer
import Verif.Spec.Files
/-!
# Properties C22–C24, C56, C58: layer state and save ordering
-/
namespace Nxt.Props
open Dict Layer Spec

/-! ## C22 -/

/-- C22: the active layers are, in stage order, the unmuted ones which are soloed if any is. -/
theorem C22_active {L : Type} (muted soloed : L → Bool) (ls : List L) :
    activeLayers muted soloed ls
      = ls.filter (fun l => !muted l && (soloed l || !ls.any soloed)) := by
  have key : ∀ (xs acc : List L),
      xs.foldl (fun res l => if muted l then res else res ++ [l]) acc
        = acc ++ xs.filter (fun l => !muted l) := by
    intro xs
    induction xs with
    | nil => intro acc; simp
    | cons x xs ih =>
      intro acc
      rw [List.foldl_cons, ih]
      by_cases h : muted x = true <;> simp [h]
  unfold activeLayers soloedLayers
  simp only [key, List.nil_append]
  by_cases h : ls.any soloed = true
  · have hne : (ls.filter soloed).isEmpty = false := by
      rw [List.any_eq_true] at h
      obtain ⟨x, hx, hs⟩ := h
      rw [List.isEmpty_eq_false_iff]
      intro he
      have : x ∈ ls.filter soloed := List.mem_filter.2 ⟨hx, hs⟩
      rw [he] at this; simp at this
    rw [hne, h]
    simp [List.filter_filter]
  · have hf : ls.filter soloed = [] := by
      rw [List.filter_eq_nil_iff]
      intro a ha hs
      exact h (List.any_eq_true.2 ⟨a, ha, hs⟩)
    have h' : ls.any soloed = false := by simpa using h
    rw [hf, h']; simp

/-- C22: a muted layer never takes part, soloed or not; with no solo at all, every unmuted layer does. -/
theorem C22_members {L : Type} (muted soloed : L → Bool) (ls : List L) (l : L) :
    (l ∈ activeLayers muted soloed ls ↔
      l ∈ ls ∧ muted l = false ∧ ((∃ x ∈ ls, soloed x = true) → soloed l = true)) ∧
    (activeLayers muted soloed ls).Sublist ls := by
  rw [C22_active]
  refine ⟨?_, List.filter_sublist⟩
  rw [List.mem_filter]
  simp only [Bool.and_eq_true, Bool.not_eq_true', Bool.or_eq_true, List.any_eq_false]
  constructor
  · rintro ⟨h1, h2, h3⟩
    refine ⟨h1, h2, ?_⟩
    rintro ⟨x, hx, hs⟩
    rcases h3 with h3 | h3
    · exact h3
    · exact absurd hs (by simpa using h3 x hx)
  · rintro ⟨h1, h2, h3⟩
    refine ⟨h1, h2, ?_⟩
    by_cases h : ∃ x ∈ ls, soloed x = true
    · exact .inl (h3 h)
    · right
      intro x hx hs
      exact h ⟨x, hx, hs⟩

/-- C22, finding: when every soloed layer is muted nothing takes part at all. -/
theorem C22_solo_and_mute_empty : activeLayers (fun l : Nat => l == 1) (fun l => l == 1) [0, 1, 2] = [] := by
  decide

example : activeLayers (fun l : Nat => l == 1) (fun l => l == 1 || l == 2) [0, 1, 2, 3] = [2] := by decide

/-! ## C23 -/

/-- C23: the override entry which counts is the one of the top-most layer having one for the path;
a state missing from that entry falls back to the layer's own state.  `chain` runs from the layer
itself up to the top layer. -/
theorem C23_topmost_entry {K : Type} [DecidableEq K] (loc : Bool) (fp : K) (chain : List (Dict K Over))
    (h : ∀ t ∈ chain, Ok t) :
    getMuted loc fp chain
      = (match chain.reverse.findSome? (get? fp) with
         | some o => o.mute.getD loc
         | none => loc) ∧
    getSoloed loc fp chain
      = (match chain.reverse.findSome? (get? fp) with
         | some o => o.solo.getD loc
         | none => loc) := by
  unfold getMuted getSoloed
  rw [get?_compedOvers chain h]
  cases chain.reverse.findSome? (get? fp) <;> simp

/-- C23 (partial: the top-most entry for the path says something about the state, or no entry does):
the state seen is that of the override of that state closest to the top layer. -/
theorem C23_topmost_state_partial {K : Type} [DecidableEq K] (loc : Bool) (fp : K)
    (chain : List (Dict K Over)) (h : ∀ t ∈ chain, Ok t)
    (hm : ∀ o, chain.reverse.findSome? (get? fp) = some o → o.mute ≠ none) :
    getMuted loc fp chain
      = (chain.reverse.findSome? (fun t => (get? fp t).bind Over.mute)).getD loc := by
  rw [(C23_topmost_entry loc fp chain h).1]
  generalize chain.reverse = rev at *
  induction rev with
  | nil => rfl
  | cons t ts ih =>
    simp only [List.findSome?_cons] at hm ⊢
    cases hg : get? fp t with
    | none =>
      rw [hg] at hm
      simp only [Option.bind_none]
      exact ih hm
    | some o =>
      rw [hg] at hm
      simp only [Option.bind_some]
      cases ho : o.mute with
      | none => exact absurd ho (hm o rfl)
      | some b => rfl

/-- C23 fails in general: a top layer which overrides only the mute state of a referenced layer hides
the solo override a layer in between makes for it. -/
theorem C23_partial_entry_violation :
    let middle : Dict Nat Over := [(7, { solo := some true })]
    let top : Dict Nat Over := [(7, { mute := some false })]
    (([[], middle, top] : List (Dict Nat Over)).reverse.findSome?
        (fun t => (get? 7 t).bind Over.solo)).getD false = true ∧
    getSoloed false 7 [[], middle, top] = false := by decide

example : getMuted false 7 [[(7, { mute := some false })], [(7, { mute := some true })]] = true := by
  decide

/-! ## C58 -/

/-- C58: after muting a referenced layer through the top layer, the layer is seen in that state
whatever the layers in between say, its own solo override in the top table is kept, and no other
layer is touched. -/
theorem C58_set_mute_over {K : Type} [DecidableEq K] (chain : List (Dict K Over)) (top : Dict K Over)
    (h : ∀ t ∈ chain, Ok t) (ht : Ok top) (fp : K) (state loc : Bool) :
    getMuted loc fp (chain ++ [setMuteOver top fp state]) = state ∧
    (∀ fp', fp' ≠ fp → getMuted loc fp' (chain ++ [setMuteOver top fp state])
        = getMuted loc fp' (chain ++ [top])) ∧
    (∀ fp', fp' ≠ fp → getSoloed loc fp' (chain ++ [setMuteOver top fp state])
        = getSoloed loc fp' (chain ++ [top])) ∧
    ((get? fp top).isSome → getSoloed loc fp (chain ++ [setMuteOver top fp state])
        = getSoloed loc fp (chain ++ [top])) := by
  have hc : ∀ k, get? k (compedOvers [top]) = get? k top := by
    intro k
    have := get?_compedOvers [top] (by simpa using ht) k
    rw [this]
    simp only [List.reverse_cons, List.reverse_nil, List.nil_append, List.findSome?_cons]
    cases get? k top <;> rfl
  have hok : Ok (setMuteOver top fp state) := ok_set (ok_compedOvers _) _ _
  have hall : ∀ t', Ok t' → ∀ t ∈ chain ++ [t'], Ok t := by
    intro t' ht' t hm
    rw [List.mem_append, List.mem_singleton] at hm
    rcases hm with hm | rfl
    · exact h t hm
    · exact ht'
  have hget : ∀ k, get? k (setMuteOver top fp state)
      = if k = fp then some { (get? fp top).getD {} with mute := some state } else get? k top := by
    intro k
    unfold setMuteOver
    simp only [get?_set, hc]
  refine ⟨?_, ?_, ?_, ?_⟩
  · rw [(C23_topmost_entry loc fp _ (hall _ hok)).1]
    simp [hget]
  · intro fp' hne
    rw [(C23_topmost_entry loc fp' _ (hall _ hok)).1, (C23_topmost_entry loc fp' _ (hall _ ht)).1]
    simp [List.findSome?_cons, hget, hne]
  · intro fp' hne
    rw [(C23_topmost_entry loc fp' _ (hall _ hok)).2, (C23_topmost_entry loc fp' _ (hall _ ht)).2]
    simp [List.findSome?_cons, hget, hne]
  · intro hs
    rw [(C23_topmost_entry loc fp _ (hall _ hok)).2, (C23_topmost_entry loc fp _ (hall _ ht)).2]
    obtain ⟨o, ho⟩ := Option.isSome_iff_exists.1 hs
    simp [hget, ho]

/-- C58: the same for soloing. -/
theorem C58_set_solo_over {K : Type} [DecidableEq K] (chain : List (Dict K Over)) (top : Dict K Over)
    (h : ∀ t ∈ chain, Ok t) (ht : Ok top) (fp : K) (state loc : Bool) :
    getSoloed loc fp (chain ++ [setSoloOver top fp state]) = state ∧
    (∀ fp', fp' ≠ fp → getSoloed loc fp' (chain ++ [setSoloOver top fp state])
        = getSoloed loc fp' (chain ++ [top])) ∧
    (∀ fp', fp' ≠ fp → getMuted loc fp' (chain ++ [setSoloOver top fp state])
        = getMuted loc fp' (chain ++ [top])) ∧
    ((get? fp top).isSome → getMuted loc fp (chain ++ [setSoloOver top fp state])
        = getMuted loc fp (chain ++ [top])) := by
  have hc : ∀ k, get? k (compedOvers [top]) = get? k top := by
    intro k
    have := get?_compedOvers [top] (by simpa using ht) k
    rw [this]
    simp only [List.reverse_cons, List.reverse_nil, List.nil_append, List.findSome?_cons]
    cases get? k top <;> rfl
  have hok : Ok (setSoloOver top fp state) := ok_set (ok_compedOvers _) _ _
  have hall : ∀ t', Ok t' → ∀ t ∈ chain ++ [t'], Ok t := by
    intro t' ht' t hm
    rw [List.mem_append, List.mem_singleton] at hm
    rcases hm with hm | rfl
    · exact h t hm
    · exact ht'
  have hget : ∀ k, get? k (setSoloOver top fp state)
      = if k = fp then some { (get? fp top).getD {} with solo := some state } else get? k top := by
    intro k
    unfold setSoloOver
    simp only [get?_set, hc]
  refine ⟨?_, ?_, ?_, ?_⟩
  · rw [(C23_topmost_entry loc fp _ (hall _ hok)).2]
    simp [hget]
  · intro fp' hne
    rw [(C23_topmost_entry loc fp' _ (hall _ hok)).2, (C23_topmost_entry loc fp' _ (hall _ ht)).2]
    simp [List.findSome?_cons, hget, hne]
  · intro fp' hne
    rw [(C23_topmost_entry loc fp' _ (hall _ hok)).1, (C23_topmost_entry loc fp' _ (hall _ ht)).1]
    simp [List.findSome?_cons, hget, hne]
  · intro hs
    rw [(C23_topmost_entry loc fp _ (hall _ hok)).1, (C23_topmost_entry loc fp _ (hall _ ht)).1]
    obtain ⟨o, ho⟩ := Option.isSome_iff_exists.1 hs
    simp [hget, ho]

/-- C58 fails when the top layer has no entry yet and a layer in between solos the layer: muting it
through the top layer also drops its solo. -/
theorem C58_mute_drops_solo_violation :
    let middle : Dict Nat Over := [(7, { solo := some true })]
    getSoloed false 7 [[], middle, []] = true ∧
    getSoloed false 7 [[], middle, setMuteOver [] 7 true] = false := by decide

/-! ## C56 -/

/-- C56: the alias seen for a layer after an alias override, and after its removal.  `chain` holds the
tables from the layer itself up to the layer below the top one. -/
theorem C56_alias_over {K : Type} [DecidableEq K] (chain : List (Dict K Str)) (root : Tables K)
    (h : ∀ t ∈ chain, Ok t) (hr : Ok root.aliases) (fp : K) (loc : Option Str) (a : Str) (fb : Bool) :
    (∃ r', setAliasOver (some root) fp (some a) = .ok r' ∧
      getMetaAttr loc fp (chain ++ [r'.aliases]) fb = some a ∧
      (∀ fp', fp' ≠ fp → getMetaAttr loc fp' (chain ++ [r'.aliases]) fb
        = getMetaAttr loc fp' (chain ++ [root.aliases]) fb)) ∧
    (∃ r', setAliasOver (some root) fp none = .ok r' ∧
      getMetaAttr loc fp (chain ++ [r'.aliases]) fb = getMetaAttr loc fp chain fb ∧
      (∀ fp', fp' ≠ fp → getMetaAttr loc fp' (chain ++ [r'.aliases]) fb
        = getMetaAttr loc fp' (chain ++ [root.aliases]) fb)) := by
  have key : ∀ (t : Dict K Str), Ok t → ∀ k,
      get? k (compedOvers (chain ++ [t])) = (get? k t).or (get? k (compedOvers chain)) := by
    intro t ht k
    rw [compedOvers_append, get?_update ht]
  constructor
  · refine ⟨_, rfl, ?_, ?_⟩
    · simp [getMetaAttr, key _ (ok_set hr fp a), get?_set]
    · intro fp' hne
      simp [getMetaAttr, key _ (ok_set hr fp a), key _ hr, get?_set, hne]
  · by_cases hk : fp ∈ keys root.aliases
    · refine ⟨{ root with aliases := erase fp root.aliases }, by simp only [setAliasOver, if_pos hk], ?_, ?_⟩
      · simp [getMetaAttr, key _ (ok_erase hr fp), get?_erase hr]
      · intro fp' hne
        simp [getMetaAttr, key _ (ok_erase hr fp), key _ hr, get?_erase hr, hne]
    · refine ⟨root, by simp only [setAliasOver, if_neg hk], ?_, fun _ _ => rfl⟩
      simp [getMetaAttr, key _ hr, get?_eq_none.2 hk]

/-- C56: the same for colours. -/
theorem C56_color_over {K : Type} [DecidableEq K] (chain : List (Dict K Str)) (root : Tables K)
    (hr : Ok root.colors) (fp : K) (loc : Option Str) (a : Str) (fb : Bool) :
    (∃ r', setColorOver (some root) fp (some a) = .ok r' ∧
      getMetaAttr loc fp (chain ++ [r'.colors]) fb = some a ∧
      (∀ fp', fp' ≠ fp → getMetaAttr loc fp' (chain ++ [r'.colors]) fb
        = getMetaAttr loc fp' (chain ++ [root.colors]) fb)) ∧
    (∃ r', setColorOver (some root) fp none = .ok r' ∧
      getMetaAttr loc fp (chain ++ [r'.colors]) fb = getMetaAttr loc fp chain fb ∧
      (∀ fp', fp' ≠ fp → getMetaAttr loc fp' (chain ++ [r'.colors]) fb
        = getMetaAttr loc fp' (chain ++ [root.colors]) fb)) := by
  have key : ∀ (t : Dict K Str), Ok t → ∀ k,
      get? k (compedOvers (chain ++ [t])) = (get? k t).or (get? k (compedOvers chain)) := by
    intro t ht k
    rw [compedOvers_append, get?_update ht]
  constructor
  · refine ⟨_, rfl, ?_, ?_⟩
    · simp [getMetaAttr, key _ (ok_set hr fp a), get?_set]
    · intro fp' hne
      simp [getMetaAttr, key _ (ok_set hr fp a), key _ hr, get?_set, hne]
  · by_cases hk : fp ∈ keys root.colors
    · refine ⟨{ root with colors := erase fp root.colors }, by simp only [setColorOver, if_pos hk], ?_, ?_⟩
      · simp [getMetaAttr, key _ (ok_erase hr fp), get?_erase hr]
      · intro fp' hne
        simp [getMetaAttr, key _ (ok_erase hr fp), key _ hr, get?_erase hr, hne]
    · refine ⟨root, by simp only [setColorOver, if_neg hk], ?_, fun _ _ => rfl⟩
      simp [getMetaAttr, key _ hr, get?_eq_none.2 hk]

/-- C56 (partial: removal only for layers which have a colour override and a lock override): locks. -/
theorem C56_lock_over_partial {K : Type} [DecidableEq K] (chain : List (Dict K Bool)) (root : Tables K)
    (hr : Ok root.locks) (fp : K) (loc : Option Bool) (a : Bool) (fb : Bool) :
    (∃ r', setLockedOver (some root) fp (some a) = .ok r' ∧
      getMetaAttr loc fp (chain ++ [r'.locks]) fb = some a ∧
      (∀ fp', fp' ≠ fp → getMetaAttr loc fp' (chain ++ [r'.locks]) fb
        = getMetaAttr loc fp' (chain ++ [root.locks]) fb)) ∧
    (fp ∈ keys root.colors → fp ∈ keys root.locks →
     ∃ r', setLockedOver (some root) fp none = .ok r' ∧
      getMetaAttr loc fp (chain ++ [r'.locks]) fb = getMetaAttr loc fp chain fb) := by
  have key : ∀ (t : Dict K Bool), Ok t → ∀ k,
      get? k (compedOvers (chain ++ [t])) = (get? k t).or (get? k (compedOvers chain)) := by
    intro t ht k
    rw [compedOvers_append, get?_update ht]
  constructor
  · refine ⟨_, rfl, ?_, ?_⟩
    · simp [getMetaAttr, key _ (ok_set hr fp a), get?_set]
    · intro fp' hne
      simp [getMetaAttr, key _ (ok_set hr fp a), key _ hr, get?_set, hne]
  · intro h1 h2
    refine ⟨{ root with locks := erase fp root.locks }, by simp only [setLockedOver, if_pos h1, if_pos h2], ?_⟩
    simp [getMetaAttr, key _ (ok_erase hr fp), get?_erase hr]

/-- C56 fails for locks: removing a lock override looks for the layer in the colour table.  Without a
colour override the lock stays; with a colour but no lock override it raises `KeyError`. -/
theorem C56_lock_removal_violation {K : Type} [DecidableEq K] (root : Tables K) (fp : K) :
    (fp ∉ keys root.colors → setLockedOver (some root) fp none = .ok root) ∧
    (fp ∈ keys root.colors → fp ∉ keys root.locks → setLockedOver (some root) fp none = .keyError) := by
  constructor
  · intro h; simp [setLockedOver, h]
  · intro h1 h2; simp [setLockedOver, h1, h2]

/-- C56: on the top layer itself the setters fail (they log and then use `None`). -/
theorem C56_top_layer_fails {K : Type} [DecidableEq K] (fp : K) :
    setAliasOver (none : Option (Tables K)) fp none = .noRoot ∧
    setColorOver (none : Option (Tables K)) fp none = .noRoot ∧
    setLockedOver (none : Option (Tables K)) fp none = .noRoot := ⟨rfl, rfl, rfl⟩

/-- C56: without any override the own value is seen when asked for, and nothing otherwise. -/
theorem C56_no_override {K V : Type} [DecidableEq K] (chain : List (Dict K V)) (loc : Option V) (fp : K)
    (h : ∀ t ∈ chain, Ok t ∧ fp ∉ keys t) :
    getMetaAttr loc fp chain true = loc ∧ getMetaAttr loc fp chain false = none := by
  have : get? fp (compedOvers chain) = none := by
    unfold compedOvers
    have : ∀ (acc : Dict K V), get? fp acc = none → get? fp (chain.foldl update acc) = none := by
      induction chain with
      | nil => intro acc ha; exact ha
      | cons t ts ih =>
        intro acc ha
        rw [List.foldl_cons]
        apply ih (fun t ht => h t (List.mem_cons_of_mem _ ht))
        have ht := h t List.mem_cons_self
        rw [get?_update ht.1, get?_eq_none.2 ht.2, ha]; rfl
    exact this [] rfl
  simp [getMetaAttr, this]

example : getMetaAttr (some "own".toList) 3 [[], [(3, "mid".toList)], [(3, "top".toList)]] true
    = some "top".toList := by decide

/-! ## C24 -/

/-- C24: ordering a layer's save data keeps every entry once; known keys come first in the fixed
order, then the others in the order they had. -/
theorem C24_order_save_dict {V : Type} (data : Dict Str V) (h : Ok data) :
    (orderSaveDict data).Perm data ∧
    keys (orderSaveDict data) = fileOrder.filter (fun k => k ∈ keys data)
      ++ (keys data).filter (fun k => k ∉ fileOrder) := by
  have hfo : fileOrder = SAVE_ORDER := rfl
  rw [hfo]
  have hn : SAVE_ORDER.Nodup := by decide +kernel
  have ft : ∀ l : List Str, l.filter (fun _ => true) = l := fun l => List.filter_eq_self.2 (by simp)
  have h1 := orderLoop_spec data h SAVE_ORDER [] [] (by simpa using hn) ok_nil
    (by intro k hk; simp at hk) (by simp)
  simp only [List.not_mem_nil, not_false_eq_true, decide_true, ft, List.nil_append] at h1
  unfold orderSaveDict
  generalize orderLoop data SAVE_ORDER ([], keys data) = st at h1
  obtain ⟨res, left⟩ := st
  obtain ⟨ha, hb, hc, hd⟩ := h1
  simp only at ha hb hc hd ⊢
  obtain ⟨h2, h3, h4⟩ := leftoverLoop_spec data left res
    (by intro k hk; rw [hd] at hk; exact (List.mem_filter.1 hk).1)
    (by rw [hd]; exact nodup_filter _ h) ha hb
  have hleft : left.filter (fun k => decide (k ∉ keys res)) = left := by
    rw [List.filter_eq_self]
    intro k hk
    rw [hd, List.mem_filter] at hk
    have h := hk.2
    simp only [decide_eq_true_eq] at h ⊢
    rw [hc, List.mem_filter]
    exact fun h' => h h'.1
  rw [hleft, hc] at h4
  refine ⟨perm_of_agrees h h2 h3 ?_, by rw [h4, hd]⟩
  intro k
  rw [h4, hd, List.mem_append, List.mem_filter, List.mem_filter]
  simp only [decide_eq_true_eq]
  constructor
  · rintro (h | h)
    · exact h.2
    · exact h.1
  · intro hk
    by_cases hs : k ∈ SAVE_ORDER
    · exact .inl ⟨hs, hk⟩
    · exact .inr ⟨hk, hs⟩

/-- C24: ordering the nodes keeps every entry once and sorts by path. -/
theorem C24_order_nodes_dict {V : Type} (data : Dict Str V) (h : Ok data) :
    (orderNodesDict data).Perm data ∧
    (keys (orderNodesDict data)).Pairwise (fun a b => strLe a b = true) := by
  have hp := List.mergeSort_perm (keys data) strLe
  obtain ⟨h1, h2, h3⟩ := leftoverLoop_spec data ((keys data).mergeSort strLe) []
    (fun k hk => hp.mem_iff.1 hk) (hp.nodup_iff.2 h) ok_nil (by intro k hk; simp at hk)
  have h4 : keys (orderNodesDict data) = (keys data).mergeSort strLe := by
    unfold orderNodesDict; rw [h3]; simp
  refine ⟨perm_of_agrees h h1 h2 (fun k => ?_), ?_⟩
  · show k ∈ keys (orderNodesDict data) ↔ _
    rw [h4]; exact hp.mem_iff
  · rw [h4]
    exact List.pairwise_mergeSort strLe_trans strLe_total _

/-- C24: ordering a node's data keeps every entry once; non-empty user attributes stand right before
the code. -/
theorem C24_order_node_dict (data : Dict Str Val) (h : Ok data) :
    (orderNodeDict data).Perm data ∧
    (keys (orderNodeDict data)) = (nodeOrder data).filter (fun k => k ∈ keys data) ++
      (keys data).filter (fun k => k ∉ nodeOrder data) := by
  have hno : nodeOrder data = withAttrs data SAVED_KEYS := by
    have hA : ATTRS = "attrs".toList := rfl
    unfold nodeOrder
    by_cases hc : (get? "attrs".toList data).any Val.truthy = true
    · rw [if_pos hc]
      rw [← hA] at hc
      simp [withAttrs, SAVED_KEYS, CODE, hc]
      rfl
    · rw [if_neg hc]
      rw [← hA] at hc
      simp [withAttrs, SAVED_KEYS, CODE, hc]
  rw [hno]
  have hn : (withAttrs data SAVED_KEYS).Nodup := by
    by_cases hc : (get? ATTRS data).any Val.truthy = true
    · have : withAttrs data SAVED_KEYS = (["start_point", "instance", "execute_in", "child_order", "enabled",
        "comment", "attrs", "code"].map String.toList) := by
        simp [withAttrs, SAVED_KEYS, CODE, ATTRS] at hc ⊢
        simp [hc]
      rw [this]; decide +kernel
    · have : withAttrs data SAVED_KEYS = SAVED_KEYS := by
        simp [withAttrs, SAVED_KEYS, CODE, ATTRS] at hc ⊢
        simp [hc]
      rw [this]; decide +kernel
  have ft : ∀ l : List Str, l.filter (fun _ => true) = l := fun l => List.filter_eq_self.2 (by simp)
  have h1 := orderNodeLoop_spec data h SAVED_KEYS [] [] (by simpa using hn) ok_nil
    (by intro k hk; simp at hk) (by simp [withAttrs])
  simp only [List.not_mem_nil, not_false_eq_true, decide_true, ft, List.nil_append] at h1
  unfold orderNodeDict
  generalize orderNodeLoop data SAVED_KEYS ([], keys data) = st at h1
  obtain ⟨res, left⟩ := st
  obtain ⟨ha, hb, hc, hd⟩ := h1
  simp only at ha hb hc hd ⊢
  obtain ⟨h2, h3, h4⟩ := leftoverLoop_spec data left res
    (by intro k hk; rw [hd] at hk; exact (List.mem_filter.1 hk).1)
    (by rw [hd]; exact nodup_filter _ h) ha hb
  have hleft : left.filter (fun k => decide (k ∉ keys res))
      = (keys data).filter (fun k => k ∉ withAttrs data SAVED_KEYS) := by
    rw [hd, List.filter_filter]
    apply List.filter_congr
    intro k hk
    rw [hc]
    have h5 : ∀ k, k ∈ SAVED_KEYS → k ∈ withAttrs data SAVED_KEYS := fun k h => mem_withAttrs_of_mem h
    by_cases h6 : k ∈ withAttrs data SAVED_KEYS
    · simp [hk, h6]
    · have h7 : k ∉ SAVED_KEYS := fun h => h6 (h5 k h)
      simp [h6, h7]
  rw [hleft, hc] at h4
  refine ⟨perm_of_agrees h h2 h3 ?_, h4⟩
  intro k
  rw [h4, List.mem_append, List.mem_filter, List.mem_filter]
  simp only [decide_eq_true_eq]
  constructor
  · rintro (h | h)
    · exact h.2
    · exact h.1
  · intro hk
    by_cases hs : k ∈ withAttrs data SAVED_KEYS
    · exact .inl ⟨hs, hk⟩
    · exact .inr ⟨hk, hs⟩

example : keys (orderSaveDict [("zz".toList, 1), ("nodes".toList, 2), ("version".toList, 3)])
    = ["version".toList, "nodes".toList, "zz".toList] := by decide +kernel

example : keys (orderNodeDict [("attrs".toList, .dict [("a".toList, .none)]), ("code".toList, .list [.none]),
    ("x".toList, .none), ("comment".toList, .str ['c'])])
    = ["comment".toList, "attrs".toList, "code".toList, "x".toList] := by decide +kernel

end Nxt.Props
