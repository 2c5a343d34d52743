import Verif.Model.PreRelease
import Verif.Spec.PreRelease
import Verif.Props.ConvertOld
import Verif.Props.Cache
/-!
# Property C155: a pre-release file keeps its nodes through the whole conversion
-/
namespace Nxt.Props
open Dict Layer Legacy Spec Convert Converting PreRelease

namespace Before1

theorem heldOr_eq (k : String) (d : Dict Str Val) : getOr k d = heldOr k d := by
  unfold getOr heldOr
  cases get? k.toList d <;> rfl

theorem readKids_eq (d : Dict Str Val) : readKids d = match get? "children".toList d with
    | none => some []
    | some v => readList v := by
  induction d with
  | nil => rfl
  | cons e d ih =>
    obtain ⟨k, v⟩ := e
    rw [readKids, get?]
    by_cases h : k = "children".toList
    · rw [if_pos h, if_pos h]
    · rw [if_neg h, if_neg h, ih]

mutual
theorem says_read : {v : Val} → {n : LNode} → Says v n → readNode v = some n
  | _, _, .mk (d := d) (kids := kids) (cs := cs) h1 h2 h3 h4 => by
    have hk : readKids d = some cs := by
      rw [readKids_eq]
      have := saysAll_read h4
      rcases h3 with h3 | ⟨h3, rfl⟩
      · rw [h3]
        simp only []
        rw [readList, this]
      · rw [h3]
        simp only []
        rw [readNodes] at this
        exact this
    rw [readNode, hk]
    unfold nodeOf
    rw [h1, h2]
    simp only [heldOr_eq]
theorem saysAll_read : {l : List Val} → {ns : List LNode} → SaysAll l ns → readNodes l = some ns
  | _, _, .nil => by rw [readNodes]
  | _, _, .cons h h' => by rw [readNodes, says_read h, saysAll_read h', consOf]
end

theorem opinion_eq (v : Val) : hasOpinion v = !nothing? v := by
  cases v with
  | list l => cases l <;> rfl
  | dict d => cases d <;> rfl
  | _ => rfl

theorem get_enabled (k : Str) (v : Val) (d : Dict Str Val) : get? k (entryEnabled v d) =
    if k = "enabled".toList then (if notNone v then some v else get? k d) else get? k d := by
  cases v <;> simp only [entryEnabled, get?_set, notNone, if_true, Bool.false_eq_true, if_false, ite_self]

/-- The entry of a node has what the node says. -/
theorem flat_said (starts : List Str) (path : Str) (n : LNode) (k : Str) :
    get? k (flatData starts path n) = preSaid starts path n k := by
  obtain ⟨name, widget, execIn, inst, enabled, compute, comment, attrs, execOrder, children⟩ := n
  have hst : ∀ (d : Dict Str Val),
      get? k (if path ∈ starts then Dict.set "start_point".toList (.bool true) d else d) =
        if k = "start_point".toList then (if path ∈ starts then some (.bool true) else get? k d) else get? k d := by
    intro d
    by_cases h : path ∈ starts
    · rw [if_pos h, if_pos h, get?_set]
    · rw [if_neg h, if_neg h, ite_self]
  have ne : ["widget_type".toList, "execute_in".toList, "instance".toList, "enabled".toList, "code".toList,
      "comment".toList, "attrs".toList, "child_order".toList, "start_point".toList].Pairwise (fun a b => a ≠ b ∧ b ≠ a) := by
    decide +kernel
  have hnil : get? k ([] : Dict Str Val) = none := rfl
  have hop : ∀ v : Val, (if hasOpinion v = true then some v else none) = if nothing? v = true then none else some v := by
    intro v
    rw [opinion_eq]
    cases nothing? v <;> rfl
  simp only [flatData, preSaid, hst, get?_entry, get_enabled, hnil]
  generalize "widget_type".toList = k1 at ne ⊢
  generalize "execute_in".toList = k2 at ne ⊢
  generalize "instance".toList = k3 at ne ⊢
  generalize "enabled".toList = k4 at ne ⊢
  generalize "code".toList = k5 at ne ⊢
  generalize "comment".toList = k6 at ne ⊢
  generalize "attrs".toList = k7 at ne ⊢
  generalize "child_order".toList = k8 at ne ⊢
  generalize "start_point".toList = k9 at ne ⊢
  simp only [List.pairwise_cons, List.mem_cons, List.not_mem_nil, or_false, forall_eq_or_imp, forall_eq, List.Pairwise.nil,
    and_true] at ne
  by_cases h1 : k = k1
  · subst h1; simp [ne, hop]
  by_cases h2 : k = k2
  · subst h2; simp [ne, hop]
  by_cases h3 : k = k3
  · subst h3; simp [ne, hop]
  by_cases h4 : k = k4
  · subst h4; simp [ne]
  by_cases h5 : k = k5
  · subst h5; simp [ne, hop]
  by_cases h6 : k = k6
  · subst h6; simp [ne, hop]
  by_cases h7 : k = k7
  · subst h7; simp [ne, hop]
  by_cases h8 : k = k8
  · subst h8; simp [ne, hop]
  by_cases h9 : k = k9
  · subst h9; simp [ne]
  simp [h1, h2, h3, h4, h5, h6, h7, h8, h9]

theorem wf_heldOr {d : Dict Str Val} (h : wf (.dict d)) (k : String) : wf (heldOr k d) := by
  rw [← heldOr_eq]
  exact wf_getD h _

theorem saysAll_mem {l : List Val} {ns : List LNode} (h : SaysAll l ns) {n : LNode} (hn : n ∈ ns) : ∃ v ∈ l, Says v n := by
  induction ns generalizing l with
  | nil => cases hn
  | cons m ns ih =>
    cases h with
    | cons h1 h2 =>
      rcases List.mem_cons.1 hn with rfl | hn
      · exact ⟨_, by simp, h1⟩
      · obtain ⟨v, hv, hs⟩ := ih h2 hn
        exact ⟨v, by simp [hv], hs⟩

/-- Every node of the tree is read from a well formed value. -/
theorem at_says {roots : List LNode} {ns : List Str} {n : LNode} (h : At roots ns n) : ∀ {l : List Val}, SaysAll l roots →
    (∀ v ∈ l, wf v) → ∃ v, wf v ∧ Says v n := by
  induction h with
  | here hn =>
    intro l hs hw
    obtain ⟨v, hv, h⟩ := saysAll_mem hs hn
    exact ⟨v, hw v hv, h⟩
  | under hn _ ih =>
    intro l hs hw
    obtain ⟨v, hv, h⟩ := saysAll_mem hs hn
    cases h with
    | mk h1 h2 h3 h4 =>
      refine ih h4 (fun w hwk => ?_)
      rcases h3 with h3 | ⟨_, rfl⟩
      · exact Converting.wfList_mem (wf_get (hw _ hv) h3) w hwk
      · cases hwk

/-- What a node says is well formed. -/
theorem said_wf {v : Val} {n : LNode} (h : Says v n) (hw : wf v) (starts : List Str) (path k : Str) {w : Val}
    (hs : preSaid starts path n k = some w) : wf w := by
  cases h with
  | @mk d e name kids cs h1 h2 h3 h4 =>
    have he := wf_get hw h2
    have t : ∀ x : Val, wf x → (if nothing? x = true then none else some x) = some w → wf w := by
      intro x hx h
      split at h
      · cases h
      · cases h; exact hx
    simp only [preSaid] at hs
    split at hs
    · exact t _ (wf_heldOr he _) hs
    split at hs
    · exact t _ (wf_heldOr hw _) hs
    split at hs
    · exact t _ (wf_heldOr he _) hs
    split at hs
    · split at hs
      · cases hs; exact wf_heldOr he _
      · cases hs
    split at hs
    · exact t _ (wf_heldOr he _) hs
    split at hs
    · exact t _ (wf_heldOr hw _) hs
    split at hs
    · exact t _ (wf_heldOr he _) hs
    split at hs
    · exact t _ (wf_heldOr hw _) hs
    split at hs
    · split at hs
      · cases hs; simp [wf]
      · cases hs
    · cases hs

theorem ok_entry {d : Dict Str Val} (h : Ok d) (k : Str) (v : Val) : Ok (entry k v d) := by
  unfold entry
  split
  · exact ok_set h _ _
  · exact h

theorem ok_flat (starts : List Str) (path : Str) (n : LNode) : Ok (flatData starts path n) := by
  obtain ⟨name, widget, execIn, inst, enabled, compute, comment, attrs, execOrder, children⟩ := n
  have he : ∀ {d : Dict Str Val}, Ok d → Ok (entryEnabled enabled d) := by
    intro d h
    cases enabled <;> simp only [entryEnabled] <;> first | exact h | exact ok_set h _ _
  have h8 := ok_entry (ok_entry (ok_entry (ok_entry (he (ok_entry (ok_entry (ok_entry ok_nil "widget_type".toList widget)
    "execute_in".toList execIn) "instance".toList inst)) "code".toList compute) "comment".toList comment) "attrs".toList attrs)
    "child_order".toList execOrder
  simp only [flatData]
  split
  · exact ok_set h8 _ _
  · exact h8

/-- Looking up in what is left after arranging and dropping. -/
theorem get_thinned (starts : List Str) {roots : List LNode} (hg : GoodTree roots) :
    let t := unpackNodes starts ['/'] [] roots
    Ok (dropNodes (arrangeNodes t)) ∧
    (∀ p d, get? p (dropNodes (arrangeNodes t)) = some d → get? p t = some d) ∧
    ∀ names n, At roots names n → (Unlisted starts roots names → get? (slashed names) (dropNodes (arrangeNodes t)) = none) ∧
      (¬ Unlisted starts roots names →
        get? (slashed names) (dropNodes (arrangeNodes t)) = some (flatData starts (slashed names) n)) := by
  intro t
  obtain ⟨hok, ht⟩ := C60_unpack starts roots hg
  change Ok t at hok
  change ∀ path d, get? path t = some d ↔ _ at ht
  have hperm := C28_arrange_keeps t hok
  have hoka : Ok (arrangeNodes t) := by
    have hf : Ok (t.filter (fun e => '/' ∈ e.1)) := (List.filter_sublist.map Prod.fst).nodup hok
    exact (hperm.map Prod.fst).nodup_iff.2 hf
  have hget : ∀ p, get? p (arrangeNodes t) = get? p t := by
    intro p
    rw [get?_perm hoka hperm p, Cached.get?_filter (fun k : Str => decide ('/' ∈ k)) t p]
    split
    · rfl
    · rename_i hp
      cases hg : get? p t with
      | none => rfl
      | some d =>
        obtain ⟨ns, n, ha, rfl, -⟩ := (ht p d).1 hg
        obtain ⟨m, -, r, rfl⟩ := at_head ha
        simp [slashed] at hp
  have hdrop : Ok (dropNodes (arrangeNodes t)) ∧ ∀ p d, get? p (dropNodes (arrangeNodes t)) = some d →
      get? p (arrangeNodes t) = some d := by
    unfold dropNodes
    simp only
    obtain ⟨q1, q2⟩ := foldl_erase ((keys (arrangeNodes t)).foldl (fun r p => if dropped (arrangeNodes t) p then r ++ [p] else r) [])
      (arrangeNodes t) hoka
    refine ⟨q1, fun p d h => ?_⟩
    rw [q2] at h
    split at h
    · cases h
    · exact h
  refine ⟨hdrop.1, fun p d h => by rw [← hget]; exact hdrop.2 p d h, fun names n ha => ?_⟩
  have hns := at_noSlash hg ha
  obtain ⟨ms, a, rfl⟩ : ∃ ms a, names = ms ++ [a] := by
    obtain ⟨m, -, r, rfl⟩ := at_head ha
    exact ⟨_, _, (List.dropLast_concat_getLast (by simp)).symm⟩
  obtain ⟨c1, c2⟩ := C63_drop (arrangeNodes t) hoka ms a hns
  have hiff : (∃ parent, get? (slashed ms) (arrangeNodes t) = some parent ∧ parent ≠ [] ∧
      ¬ ∃ l, get? "child_order".toList parent = some (.list l) ∧ .str a ∈ l) ↔ Unlisted starts roots (ms ++ [a]) := by
    constructor
    · rintro ⟨parent, h1, h2, h3⟩
      rw [hget] at h1
      obtain ⟨ns, m, hm, he, rfl⟩ := (ht _ _).1 h1
      have : ms = ns := slashed_inj (fun x hx => hns x (by simp [hx])) (at_noSlash hg hm) he
      subst this
      refine ⟨ms, a, m, rfl, hm, ?_, fun l hl hal => h3 ⟨l, by rw [flat_said]; exact hl, hal⟩⟩
      cases hf : flatData starts (slashed ms) m with
      | nil => exact absurd hf h2
      | cons e r =>
        refine ⟨e.1, ?_⟩
        rw [← flat_said, hf, get?]
        simp
    · rintro ⟨ms', a', m, he, hm, ⟨k, hk⟩, h3⟩
      obtain ⟨rfl, he'⟩ := List.append_inj' he rfl
      obtain rfl := List.singleton_inj.1 he'
      refine ⟨flatData starts (slashed ms) m, by rw [hget]; exact (ht _ _).2 ⟨ms, m, hm, rfl, rfl⟩, fun hn => hk ?_, ?_⟩
      · rw [← flat_said, hn]; rfl
      · rintro ⟨l, hl, hal⟩
        rw [flat_said] at hl
        exact h3 l hl hal
  refine ⟨fun hu => c1 (hiff.2 hu), fun hu => ?_⟩
  rw [c2 (fun h => hu (hiff.1 h)), hget]
  exact (ht _ _).2 ⟨_, n, ha, rfl, rfl⟩

theorem startsOf_eq {d : Dict Str Val} {roots : List LNode} {starts : List Str} (h : startsIn d starts) :
    ∃ starts', startsOf roots d = some starts' ∧ (roots ≠ [] → starts' = starts) := by
  obtain ⟨m, hm, h⟩ := h
  unfold startsOf
  cases roots with
  | nil => exact ⟨[], rfl, fun h => absurd rfl h⟩
  | cons r rs =>
    rw [hm]
    simp only [List.isEmpty_cons, Bool.false_eq_true, if_false]
    rcases h with ⟨h, rfl⟩ | h
    · rw [h]; exact ⟨[], rfl, fun _ => rfl⟩
    · rw [h]
      refine ⟨_, rfl, fun _ => ?_⟩
      rw [List.filterMap_map]
      clear h hm
      induction starts with
      | nil => rfl
      | cons a l ih => rw [List.filterMap_cons]; simp only [Function.comp]; rw [← ih]; simp [Function.comp_def]

/-- The file before the keys are ordered. -/
structure Unordered (d : Dict Str Val) (roots : List LNode) (starts : List Str) (y : Dict Str Val) : Prop where
  wf : wf (.dict y)
  version : get? "version".toList y = some (.str "1.0.0".toList)
  entries : ∀ k, k ∉ ["version", "children", "data", "meta_data", "nodes"].map String.toList → get? k y = get? k d
  gone : get? "children".toList y = none ∧ get? "data".toList y = none
  metaData : get? "meta_data".toList y = get? "data".toList d
  nodes : roots ≠ [] → get? "nodes".toList y =
    some (.dict ((dropNodes (arrangeNodes (unpackNodes starts ['/'] [] roots))).map (fun e => (e.1, .dict e.2))))
  noNodes : roots = [] → get? "nodes".toList y = none

theorem wf_thinned {d : Dict Str Val} {roots : List LNode} {starts : List Str} (h : PreShape d roots starts) :
    wf (.dict ((dropNodes (arrangeNodes (unpackNodes starts ['/'] [] roots))).map (fun e => (e.1, Val.dict e.2)))) := by
  obtain ⟨hok, hsub, -⟩ := get_thinned starts h.good
  rw [wf_dict_iff]
  refine ⟨?_, fun p v hv => ?_⟩
  · unfold Ok
    have : keys ((dropNodes (arrangeNodes (unpackNodes starts ['/'] [] roots))).map (fun e => (e.1, Val.dict e.2))) =
        keys (dropNodes (arrangeNodes (unpackNodes starts ['/'] [] roots))) := by
      unfold keys; rw [List.map_map]; rfl
    rw [this]; exact hok
  · rw [get?_mapDict, Option.map_eq_some_iff] at hv
    obtain ⟨nd, hnd, rfl⟩ := hv
    obtain ⟨ns, n, ha, rfl, rfl⟩ := ((C60_unpack starts roots h.good).2 p nd).1 (hsub p nd hnd)
    obtain ⟨l, hl, hs⟩ := h.children
    obtain ⟨v, hwv, hsv⟩ := at_says ha hs (Converting.wfList_mem (wf_get h.wf hl))
    rw [wf_dict_iff]
    refine ⟨ok_flat _ _ _, fun k w hw => ?_⟩
    rw [flat_said] at hw
    exact said_wf hsv hwv starts _ k hw

theorem pre_total {d : Dict Str Val} {roots : List LNode} {starts : List Str} (h : PreShape d roots starts) :
    ∃ y, convertPre d = some (deepOrder KEYS_V1 y) ∧ Unordered d roots starts y := by
  obtain ⟨l, hl, hs⟩ := h.children
  obtain ⟨m, hm, hst⟩ := h.starting
  obtain ⟨starts', e1, e2⟩ := startsOf_eq (roots := roots) ⟨m, hm, hst⟩
  have hroots : rootsOf d = some roots := by
    unfold rootsOf
    rw [hl]
    simp only []
    rw [readList, saysAll_read hs]
  have hnodes : nodesOf d = some none := by
    unfold nodesOf
    rw [h.noNodes]
  have hok := ((wf_dict_iff d).1 h.wf).1
  have ne : ["version".toList, "children".toList, "data".toList, "meta_data".toList, "nodes".toList].Pairwise
      (fun a b => a ≠ b ∧ b ≠ a) := by decide +kernel
  -- the nodes
  obtain ⟨y1, hy1, w1, n1, n2, n3⟩ : ∃ y1, putNodes (unpackAll starts' roots none) (erase "children".toList d) = y1 ∧
      wf (.dict y1) ∧ (∀ k, k ≠ "nodes".toList → get? k y1 = get? k (erase "children".toList d)) ∧
      (roots ≠ [] → get? "nodes".toList y1 =
        some (.dict ((dropNodes (arrangeNodes (unpackNodes starts ['/'] [] roots))).map (fun e => (e.1, .dict e.2))))) ∧
      (roots = [] → get? "nodes".toList y1 = none) := by
    cases hr : roots with
    | nil =>
      refine ⟨_, rfl, wf_erase h.wf _, fun _ _ => rfl, fun hn => absurd rfl hn, fun _ => ?_⟩
      show get? "nodes".toList (erase "children".toList d) = none
      rw [get?_erase hok, h.noNodes, ite_self]
    | cons r rs =>
      have hne : roots ≠ [] := by rw [hr]; simp
      have e3 := e2 hne
      subst e3
      have hu : unpackAll starts' (r :: rs) none = some (unpackNodes starts' ['/'] [] roots) := by rw [hr]; rfl
      refine ⟨_, rfl, ?_, fun k hk => ?_, fun _ => ?_, fun hn => by cases hn⟩ <;> rw [hu] <;> unfold putNodes <;> simp only []
      · exact wf_set (wf_erase h.wf _) _ (wf_thinned h)
      · rw [get?_set, if_neg hk]
      · rw [get?_set, if_pos rfl, hr]
  have hconv : convertPre d = some (deepOrder KEYS_V1 (putMeta (Dict.set "version".toList (.str "1.0.0".toList) y1))) := by
    unfold convertPre
    rw [hroots, Option.bind_some, e1, Option.bind_some, hnodes, Option.map_some]
    simp only [hy1]
  refine ⟨_, hconv, ?_⟩
  have w2 := wf_set w1 "version".toList (v := .str "1.0.0".toList) (by simp [wf])
  have g2 : ∀ k, get? k (Dict.set "version".toList (.str "1.0.0".toList) y1) =
      if k = "version".toList then some (.str "1.0.0".toList) else get? k y1 := fun k => get?_set ..
  generalize Dict.set "version".toList (Val.str "1.0.0".toList) y1 = y2 at w2 g2
  have ok2 := ((wf_dict_iff y2).1 w2).1
  have ge : ∀ k, get? k (erase "children".toList d) = if k = "children".toList then none else get? k d := fun k => get?_erase hok ..
  simp only [List.pairwise_cons, List.mem_cons, List.not_mem_nil, or_false, forall_eq_or_imp, forall_eq, List.Pairwise.nil,
    and_true] at ne
  have hdata : get? "data".toList y2 = some (.dict m) := by
    rw [g2, if_neg ne.1.2.1.2, n1 _ ne.2.2.1.2.1, ge, if_neg ne.2.1.1.2, hm]
  have hput : putMeta y2 = Dict.set "meta_data".toList (.dict m) (erase "data".toList y2) := by
    unfold putMeta
    rw [hdata]
  have gp : ∀ k, get? k (putMeta y2) = if k = "meta_data".toList then some (.dict m) else if k = "data".toList then none
      else get? k y2 := by
    intro k
    rw [hput, get?_set, get?_erase ok2]
  refine ⟨?_, ?_, fun k hk => ?_, ⟨?_, ?_⟩, ?_, fun hr => ?_, fun hr => ?_⟩
  · rw [hput]
    exact wf_set (wf_erase w2 _) _ (wf_get h.wf hm)
  · rw [gp, if_neg ne.1.2.2.1.1, if_neg ne.1.2.1.1, g2, if_pos rfl]
  · simp only [List.map_cons, List.map_nil, List.mem_cons, List.not_mem_nil, or_false, not_or] at hk
    obtain ⟨q1, q2, q3, q4, q5⟩ := hk
    rw [gp, if_neg q4, if_neg q3, g2, if_neg q1, n1 _ q5, ge, if_neg q2]
  · rw [gp, if_neg ne.2.1.2.1.1, if_neg ne.2.1.1.1, g2, if_neg ne.1.1.2, n1 _ ne.2.1.2.2.1, ge, if_pos rfl]
  · rw [gp, if_neg ne.2.2.1.1.1, if_pos rfl]
  · rw [gp, if_pos rfl, hm]
  · rw [gp, if_neg ne.2.2.2.1.2, if_neg ne.2.2.1.2.2, g2, if_neg ne.1.2.2.2.2, n2 hr]
  · rw [gp, if_neg ne.2.2.2.1.2, if_neg ne.2.2.1.2.2, g2, if_neg ne.1.2.2.2.2, n3 hr]

theorem same_ordered {y : Dict Str Val} (hw : wf (.dict y)) (k : Str) :
    SameOpt (get? k (deepOrder KEYS_V1 y)) (get? k y) := by
  rw [get_deepOrder _ ((wf_dict_iff y).1 hw).1]
  cases hg : get? k y with
  | none => exact sameOpt_refl _
  | some v => exact deepVal_same _ v (wf_get hw hg)

theorem preFile {d : Dict Str Val} {roots : List LNode} {starts : List Str} (h : PreShape d roots starts) {y : Dict Str Val}
    (hy : Unordered d roots starts y) : PreFile d roots starts (deepOrder KEYS_V1 y) := by
  have hok := ((wf_dict_iff y).1 hy.wf).1
  have hget := fun k => get_deepOrder KEYS_V1 hok k
  have same := fun k => same_ordered hy.wf k
  refine ⟨?_, fun k hk => ?_, ⟨?_, ?_⟩, ?_, fun hr => ?_, fun hr => ?_⟩
  · rw [hget, hy.version]; rfl
  · rw [← hy.entries k hk]; exact same k
  · rw [hget, hy.gone.1]; rfl
  · rw [hget, hy.gone.2]; rfl
  · rw [← hy.metaData]; exact same _
  · have hs := same "nodes".toList
    have hn := hy.nodes hr
    obtain ⟨-, hsub, hmem⟩ := get_thinned starts h.good
    rw [hn] at hs
    obtain ⟨ns, hns⟩ := sameOpt_dict_left hs
    rw [hns] at hs
    have hp := fun p => sameJson_get hs p
    refine ⟨ns, hns, fun names n ha hu => ?_, fun p hne => ?_⟩
    · have h1 := hp (slashed names)
      rw [get?_mapDict, (hmem names n ha).2 hu, Option.map_some] at h1
      obtain ⟨nd, hnd⟩ := sameOpt_dict_left h1
      rw [hnd] at h1
      refine ⟨nd, hnd, fun k => ?_⟩
      rw [← flat_said]
      exact sameJson_get h1 k
    · have h1 := hp p
      rw [get?_mapDict] at h1
      cases hg : get? p (dropNodes (arrangeNodes (unpackNodes starts ['/'] [] roots))) with
      | none =>
        rw [hg] at h1
        exact absurd (same_left_none h1 rfl) hne
      | some nd =>
        obtain ⟨names, n, ha, rfl, -⟩ := ((C60_unpack starts roots h.good).2 p nd).1 (hsub p nd hg)
        refine ⟨names, n, ha, rfl, fun hu => ?_⟩
        rw [(hmem names n ha).1 hu] at hg
        cases hg
  · rw [hget, hy.noNodes hr]; rfl

theorem deepItems_mem {l : List Val} {r : Val} (h : r ∈ deepItems KEYS_V1 l) (hl : ∀ v ∈ l, ∃ e, v = .dict e) :
    ∃ e, Val.dict e ∈ l ∧ r = .dict (deepOrder KEYS_V1 e) := by
  induction l with
  | nil => rw [deepItems] at h; cases h
  | cons v l ih =>
    obtain ⟨e, rfl⟩ := hl v (by simp)
    rw [deepItems] at h
    rcases List.mem_cons.1 h with rfl | h
    · exact ⟨e, by simp, rfl⟩
    · obtain ⟨e', m, he⟩ := ih h (fun v hv => hl v (by simp [hv]))
      exact ⟨e', by simp [m], he⟩

theorem shape_pre {d : Dict Str Val} {roots : List LNode} {starts : List Str} (h : PreShape d roots starts) {y : Dict Str Val}
    (hy : Unordered d roots starts y) : Shape109 (deepOrder KEYS_V1 y) := by
  have hok := ((wf_dict_iff y).1 hy.wf).1
  have hget := fun k => get_deepOrder KEYS_V1 hok k
  have P := preFile h hy
  refine ⟨wf_deepOrder _ hy.wf, fun v hv => ?_, fun v hv => ?_, fun v hv => ?_, fun v hv => ?_⟩
  · by_cases hr : roots = []
    · rw [P.noNodes hr] at hv; cases hv
    · obtain ⟨ns, e1, e2, e3⟩ := P.nodes hr
      rw [e1] at hv
      cases hv
      refine ⟨ns, rfl, fun p nv hp => ?_⟩
      obtain ⟨names, n, ha, rfl, hu⟩ := e3 p (by rw [hp]; simp)
      obtain ⟨nd, hnd, hk⟩ := e2 names n ha hu
      rw [hnd] at hp
      cases hp
      refine ⟨nd, rfl, fun a haa => ?_⟩
      obtain ⟨w, hw, hj⟩ := sameOpt_of_get (hk "attrs".toList) haa
      exact dictOfDicts_same hj (h.attrs names n w ha hw)
  · obtain ⟨m, hm, -⟩ := h.starting
    have hs := P.metaData
    rw [hm, hv] at hs
    obtain ⟨m', hm'⟩ := sameOpt_dict_left hs
    cases hm'
    refine ⟨m', rfl, fun k hk t ht => ?_⟩
    obtain ⟨w, hw, hj⟩ := sameOpt_of_get (sameJson_get hs k) ht
    obtain ⟨e, rfl⟩ := h.tables m hm k hk w hw
    obtain ⟨e', rfl, -⟩ := sameJson_dict_right hj
    exact ⟨e', rfl⟩
  · obtain ⟨w, hw, hj⟩ := sameOpt_of_get (P.entries "comp_overrides".toList (by decide +kernel)) hv
    exact dictOfDicts_same hj (h.overs w hw)
  · rw [hget, hy.entries _ (by decide +kernel), Option.map_eq_some_iff] at hv
    obtain ⟨w, hw, rfl⟩ := hv
    obtain ⟨l, rfl, hl⟩ := h.refs w hw
    refine ⟨deepItems KEYS_V1 l, by rw [deepVal], fun r hr => ?_⟩
    obtain ⟨e, he, rfl⟩ := deepItems_mem hr (fun v hv => (hl v hv).imp fun _ h => h.1)
    refine ⟨_, rfl, fun p hp => ?_⟩
    have hwe := Converting.wfList_mem (wf_get h.wf hw) _ he
    rw [get_deepOrder _ ((wf_dict_iff e).1 hwe).1, Option.map_eq_some_iff] at hp
    obtain ⟨q, hq, rfl⟩ := hp
    obtain ⟨e', h1, h2⟩ := hl _ he
    cases h1
    rcases h2 q hq with rfl | ⟨s, rfl⟩
    · exact .inl (by rw [deepVal])
    · exact .inr ⟨s, by rw [deepVal]⟩

end Before1
open Before1

/-- C155: the converter of pre-release files: every node of the tree which is listed, or whose parent says nothing, is in
the new file at its path with what it says; no other node is; the rest is kept. -/
theorem C155_unpacked (d : Dict Str Val) (roots : List LNode) (starts : List Str) (h : PreShape d roots starts) :
    ∃ x, convertPre d = some x ∧ PreFile d roots starts x := by
  obtain ⟨y, h1, h2⟩ := pre_total h
  exact ⟨_, h1, preFile h h2⟩

/-- C155: a pre-release file, from its tree to version 1.16: first as `PreFile` says, then as `OldFile` says; so the nodes
in the end are the listed ones with what they say, but for the widget type. -/
theorem C155_whole (d : Dict Str Val) (roots : List LNode) (starts : List Str) (a b r : Str) (m : Nat)
    (ha : Decimal a 0) (hb : Decimal b m) (hr : r = [] ∨ ∃ t, r = '.' :: t)
    (hver : get? "version".toList d = some (.str (a ++ '.' :: (b ++ r)))) (hm : 39 ≤ m) (h : PreShape d roots starts) :
    ∃ fuel0 x d', (∀ fuel, fuel0 ≤ fuel → convertAny fuel d = .ok d') ∧ PreFile d roots starts x ∧ OldFile x d' ∧
      (roots ≠ [] → ∃ ns, get? "nodes".toList d' = some (.dict ns) ∧
        (∀ names n, At roots names n → ¬ Unlisted starts roots names → ∃ nd, get? (slashed names) ns = some (.dict nd) ∧
          ∀ k, SameOpt (get? k nd) (if k = "widget_type".toList then none else preSaid starts (slashed names) n k)) ∧
        ∀ p, get? p ns ≠ none → ∃ names n, At roots names n ∧ p = slashed names ∧ ¬ Unlisted starts roots names) := by
  obtain ⟨y, h1, hy⟩ := pre_total h
  have P := preFile h hy
  have hsx := shape_pre h hy
  have hv : get? "version".toList (deepOrder KEYS_V1 y) = some (.str (['1'] ++ '.' :: (['0'] ++ ['.', '0']))) := by
    rw [P.version, show "1.0.0".toList = ['1'] ++ '.' :: (['0'] ++ ['.', '0']) by decide +kernel]
  have hvx := versionOf_text P.version
  generalize deepOrder KEYS_V1 y = x at h1 P hsx hv hvx
  obtain ⟨fuel1, d', hrun, F⟩ := C136_old convertPre x ['1'] ['0'] ['.', '0'] 1 0 (Decimal.one '1' (by decide))
    (Decimal.one '0' (by decide)) (.inr ⟨['0'], rfl⟩) hv (by decide) (by decide) hsx
  obtain ⟨fuel2, hpre⟩ := C27_convert_pre_release versionOf convertPre table table_sorted (by simp [table, Version.GRAPH_MINOR]) d
    a b r m ha hb hr (versionOf_text hver) hm (fun x hx => by
      rw [h1] at hx
      cases hx
      exact hvx)
  obtain ⟨fuel3, hrun'⟩ := run convertPre x ['1'] ['0'] ['.', '0'] 1 0 (Decimal.one '1' (by decide))
    (Decimal.one '0' (by decide)) (.inr ⟨['0'], rfl⟩) hv (by decide) (by decide)
  refine ⟨fuel2, _, d', fun fuel hf => ?_, P, F, fun hne => ?_⟩
  · have e1 := hrun (max fuel1 fuel3) (Nat.le_max_left _ _)
    rw [hrun' (max fuel1 fuel3) (Nat.le_max_right _ _), if_pos (by decide)] at e1
    unfold convertAny convertData
    rw [hpre fuel hf]
    have e2 : applyAll (convertPre :: table.map Prod.snd) d = applyAll [convert109, convert114, convert115] x := by
      rw [applyAll, h1]; rfl
    rw [e2]
    cases hap : applyAll [convert109, convert114, convert115] x with
    | none => rw [hap] at e1; cases e1
    | some z => rw [hap] at e1; exact e1
  · obtain ⟨ns0, e1, e2, e3⟩ := P.nodes hne
    obtain ⟨ns, f1, f2, f3⟩ := F.nodes ns0 e1
    have sl : ∀ {names n}, At roots names n → '/' ∈ slashed names := by
      intro names n ha
      obtain ⟨m, -, r, rfl⟩ := at_head ha
      simp [slashed]
    refine ⟨ns, f1, fun names n ha hu => ?_, fun p hp => ?_⟩
    · obtain ⟨nd0, g1, g2⟩ := e2 names n ha hu
      obtain ⟨nd, g3, g4⟩ := f3 _ nd0 (sl ha) g1
      refine ⟨nd, g3, fun k => SameOpt.trans (g4 k) ?_⟩
      by_cases hk : k ∈ nodeEntries115
      · rw [if_pos hk, if_neg]
        · exact g2 k
        · rintro rfl
          exact absurd hk (by decide +kernel)
      · rw [if_neg hk]
        have key : preSaid starts (slashed names) n k = none ∨ k = "widget_type".toList := by
          by_cases hw : k = "widget_type".toList
          · exact .inr hw
          · left
            obtain ⟨name, widget, execIn, inst, enabled, compute, comment, attrs, execOrder, children⟩ := n
            simp only [preSaid]
            have hall : ∀ s : Str, s ∈ nodeEntries115 → k ≠ s := fun s hs hks => hk (hks ▸ hs)
            rw [if_neg hw, if_neg (hall _ (by decide +kernel)), if_neg (hall _ (by decide +kernel)),
              if_neg (hall _ (by decide +kernel)), if_neg (hall _ (by decide +kernel)), if_neg (hall _ (by decide +kernel)),
              if_neg (hall _ (by decide +kernel)), if_neg (hall _ (by decide +kernel)), if_neg (hall _ (by decide +kernel))]
        rcases key with hn | hw
        · rw [hn, ite_self]; exact sameOpt_refl _
        · rw [if_pos hw]; exact sameOpt_refl _
    · refine e3 p (fun hn => hp ((f2 p).2 (fun _ => hn)))

/-- C155 fails: a pre-release file with nodes but without the entry `data` is not converted. -/
theorem C155_no_data_violation (d : Dict Str Val) (v : Val) (l : List Val)
    (hc : get? "children".toList d = some (.list (v :: l))) (hd : get? "data".toList d = none) : convertPre d = none := by
  unfold convertPre rootsOf
  rw [hc]
  simp only []
  rw [readList, readNodes]
  cases readNode v with
  | none => rfl
  | some n =>
    cases readNodes l with
    | none => rfl
    | some ns =>
      rw [consOf, Option.bind_some]
      unfold startsOf
      rw [hd]
      rfl

/-- C155 fails: a child which its parent does not list is left out, its own children stay without it. -/
theorem C155_unlisted_violation (d : Dict Str Val) (roots : List LNode) (starts : List Str) (h : PreShape d roots starts)
    (names : List Str) (n : LNode) (ha : At roots names n) (hu : Unlisted starts roots names) :
    ∃ x ns, convertPre d = some x ∧ get? "nodes".toList x = some (.dict ns) ∧ get? (slashed names) ns = none := by
  obtain ⟨x, h1, P⟩ := C155_unpacked d roots starts h
  obtain ⟨ns, h2, -, h3⟩ := P.nodes (by rintro rfl; obtain ⟨m, hm, -⟩ := at_head ha; cases hm)
  refine ⟨x, ns, h1, h2, ?_⟩
  cases hg : get? (slashed names) ns with
  | none => rfl
  | some v =>
    obtain ⟨names', n', ha', he, hu'⟩ := h3 (slashed names) (by rw [hg]; simp)
    rw [slashed_inj (at_noSlash h.good ha) (at_noSlash h.good ha') he] at hu
    exact absurd hu hu'

/-! ### Cases -/

/-- A pre-release file: a root with code which lists one of its two children. -/
def exPre : Dict Str Val :=
  [("version".toList, .str "0.45.0".toList), ("alias".toList, .str ['x']),
   ("data".toList, .dict [("start_nodes".toList, .list [.str "/a".toList]), ("position_data".toList, .dict [(['p'], .num 1)])]),
   ("children".toList, .list [.dict [("name".toList, .str ['a']),
     ("data".toList, .dict [("compute".toList, .list [.str ['c']]), ("widget_type".toList, .str ['w'])]),
     ("execute_order".toList, .list [.str ['b']]),
     ("children".toList, .list [.dict [("name".toList, .str ['b']), ("data".toList, .dict [("enabled".toList, .bool false)])],
       .dict [("name".toList, .str ['c']), ("data".toList, .dict [])]])]])]

/-- Its children and its root. -/
def exPreB : LNode := .mk ['b'] .none .none .none (.bool false) .none .none .none .none []
def exPreC : LNode := .mk ['c'] .none .none .none .none .none .none .none .none []
def exPreA : LNode :=
  .mk ['a'] (.str ['w']) .none .none .none (.list [.str ['c']]) .none .none (.list [.str ['b']]) [exPreB, exPreC]

/-- The values of the file which stand for them. -/
def exPreKids : List Val :=
  [.dict [("name".toList, .str ['b']), ("data".toList, .dict [("enabled".toList, .bool false)])],
   .dict [("name".toList, .str ['c']), ("data".toList, .dict [])]]
def exPreRoots : List Val :=
  [.dict [("name".toList, .str ['a']),
     ("data".toList, .dict [("compute".toList, .list [.str ['c']]), ("widget_type".toList, .str ['w'])]),
     ("execute_order".toList, .list [.str ['b']]), ("children".toList, .list exPreKids)]]

theorem Before1.exPre_says : SaysAll exPreRoots [exPreA] := by
  have hb := Says.mk (d := [("name".toList, .str ['b']), ("data".toList, .dict [("enabled".toList, .bool false)])])
    (e := [("enabled".toList, .bool false)]) (name := ['b']) (kids := []) (cs := []) rfl rfl (.inr ⟨rfl, rfl⟩) .nil
  have hc := Says.mk (d := [("name".toList, .str ['c']), ("data".toList, .dict [])])
    (e := []) (name := ['c']) (kids := []) (cs := []) rfl rfl (.inr ⟨rfl, rfl⟩) .nil
  have hk : SaysAll exPreKids [exPreB, exPreC] := .cons hb (.cons hc .nil)
  have ha := Says.mk (d := [("name".toList, .str ['a']),
     ("data".toList, .dict [("compute".toList, .list [.str ['c']]), ("widget_type".toList, .str ['w'])]),
     ("execute_order".toList, .list [.str ['b']]), ("children".toList, .list exPreKids)])
    (e := [("compute".toList, .list [.str ['c']]), ("widget_type".toList, .str ['w'])]) (name := ['a']) (kids := exPreKids)
    rfl rfl (.inl rfl) hk
  exact .cons ha .nil

/-- A case of `C155_unpacked` and `C155_whole`: the shape. -/
theorem Before1.exPre_shape : PreShape exPre [exPreA] ["/a".toList] := by
  have leaf : ∀ n : LNode, lchildren n = [] → GoodTree (lchildren n) := fun n hn => by
    rw [hn]; exact GoodTree.mk (by simp) (by simp) (by simp)
  have hgood : GoodTree [exPreA] := by
    refine GoodTree.mk (by simp) (by simp [exPreA, lname]) ?_
    intro n hn
    obtain rfl := List.mem_singleton.1 hn
    refine GoodTree.mk (by decide) (by decide) ?_
    intro n hn
    rcases List.mem_cons.1 hn with rfl | hn
    · exact leaf _ rfl
    · obtain rfl := List.mem_singleton.1 hn
      exact leaf _ rfl
  refine ⟨?_, ⟨_, rfl, exPre_says⟩, hgood, ⟨_, rfl, .inr rfl⟩, rfl, fun ns n v ha hv => ?_, fun m hm k hk t ht => ?_,
    fun v hv => (nomatch (show (none : Option Val) = some v from hv)),
    fun v hv => (nomatch (show (none : Option Val) = some v from hv))⟩
  · simp only [exPre, wf, wfPairs, wfList, and_true, true_and]
    decide +kernel
  · have key : ∀ {l ns n}, At l ns n → (∀ m ∈ l, m = exPreA ∨ m = exPreB ∨ m = exPreC) →
        n = exPreA ∨ n = exPreB ∨ n = exPreC := by
      intro l ns n ha
      induction ha with
      | here hn => exact fun h => h _ hn
      | under hn _ ih =>
        intro h
        refine ih (fun m hm => ?_)
        rcases h _ hn with rfl | rfl | rfl
        · rcases List.mem_cons.1 hm with rfl | hm
          · exact .inr (.inl rfl)
          · exact .inr (.inr (List.mem_singleton.1 hm))
        · cases hm
        · cases hm
    rcases key ha (fun m hm => .inl (List.mem_singleton.1 hm)) with rfl | rfl | rfl <;>
      exact nomatch (show (none : Option Val) = some v from hv)
  · obtain rfl : _ = m := by
      injection hm with hm
      injection hm
    rcases List.mem_cons.1 (mem_of_get? ht) with h | h
    · cases h
      exact absurd hk (by decide +kernel)
    · cases List.mem_singleton.1 h
      exact ⟨_, rfl⟩

/-- A case of `C155_unlisted_violation`: of the two children one is listed. -/
example : At [exPreA] [['a'], ['c']] exPreC ∧ Unlisted ["/a".toList] [exPreA] [['a'], ['c']] ∧
    ¬ Unlisted ["/a".toList] [exPreA] [['a'], ['b']] := by
  have hA : At [exPreA] [['a']] exPreA := At.here (n := exPreA) (by simp)
  refine ⟨At.under (n := exPreA) (by simp) (At.here (n := exPreC) (by simp [exPreA, lchildren])),
    ⟨[['a']], ['c'], exPreA, rfl, hA, ⟨"code".toList, ?_⟩, fun l hl => ?_⟩, ?_⟩
  · have : preSaid ["/a".toList] (slashed [['a']]) exPreA "code".toList = some (.list [.str ['c']]) := rfl
    rw [this]; simp
  · have : l = [.str ['b']] := by
      have h : preSaid ["/a".toList] (slashed [['a']]) exPreA "child_order".toList = some (.list [.str ['b']]) := rfl
      rw [h] at hl
      injection hl with hl; injection hl with hl; exact hl.symm
    subst this
    simp
  · rintro ⟨ms, a, parent, he, hp, -, hl⟩
    obtain ⟨rfl, ha⟩ := List.append_inj' (s₁ := [['a']]) (t₁ := [['b']]) he rfl
    obtain rfl := List.singleton_inj.1 ha
    have hroot : ∀ {ns n}, At [exPreA] ns n → ns = [['a']] → n = exPreA := by
      intro ns n h hn
      cases h with
      | here h => exact List.mem_singleton.1 h
      | under _ h =>
        obtain ⟨m, -, r, rfl⟩ := at_head h
        simp at hn
    rw [hroot hp rfl] at hl
    exact hl [.str ['b']] rfl (by simp)

theorem readNodes_broken (before after : List Val) (v : Val) (h : readNode v = none) :
    readNodes (before ++ v :: after) = none := by
  induction before with
  | nil => rw [List.nil_append, readNodes, h]; rfl
  | cons x before ih =>
    rw [List.cons_append, readNodes, ih]
    cases readNode x <;> rfl

mutual
theorem broken_kids : ∀ {v : Val}, BrokenKids v → readList v = none
  | _, .none => by simp only [readList]
  | _, .bool b => by simp only [readList]
  | _, .num n => by simp only [readList]
  | _, .text c s => by simp only [readList]
  | _, .item before after v h => by rw [readList, readNodes_broken before after v (broken_node h)]
theorem broken_node : ∀ {v : Val}, BrokenNode v → readNode v = none
  | _, .notDict v h => by
    cases v with
    | dict d => exact absurd rfl (h d)
    | _ => simp only [readNode]
  | _, .noName d h => by
    rw [readNode]
    unfold nodeOf
    rw [h]
  | _, .noData d h => by
    rw [readNode]
    unfold nodeOf
    rw [h]
    split
    · rename_i h1 _; cases h1
    · rfl
  | _, .kids d v hv h => by
    rw [readNode, readKids_eq, hv]
    dsimp only
    rw [broken_kids h]
    unfold nodeOf
    split
    · rename_i h1; cases h1
    · rfl
end

/-- C155: a pre-release file with a node anywhere in its tree which has no name or no entry `data`, or children one cannot
go through, is refused; no part of it is converted. -/
theorem C155_refused (d : Dict Str Val) (v : Val) (hc : get? "children".toList d = some v) (h : BrokenKids v) :
    convertPre d = none := by
  unfold convertPre rootsOf
  rw [hc]
  dsimp only
  rw [broken_kids h]
  rfl

/-- A node below another without a name. -/
example : convertPre [("children".toList, .list [.dict [("name".toList, .str "a".toList), ("data".toList, .dict []),
    ("children".toList, .list [.dict [("data".toList, .dict [])]])]]), ("data".toList, .dict [])] = none :=
  C155_refused _ _ rfl (.item [] [] _ (.kids _ _ rfl (.item [] [] _ (.noName _ rfl))))

end Nxt.Props
