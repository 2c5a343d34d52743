import Verif.Props.Build
import Verif.Model.AttrSource
import Verif.Model.Disk
import Verif.Lemmas.Attrs
import Verif.Spec.AttrSource
import Verif.Model.Runtime
/-!
# Property C146: the source of an attribute is where its value stands
-/
namespace Nxt.Props
open Dict NodeData Mro Inherit Spec Path AttrSource

namespace Signing

theorem prot_user {b : List Str} {k : Str} (h : UserName b k) : k ∉ Rt.protectedNames b := by
  unfold Rt.protectedNames
  simp only [List.mem_append, not_or]
  refine ⟨⟨⟨h.1, ?_⟩, ?_⟩, ?_⟩
  · exact fun hm => h.2.1 ((by decide +kernel : ∀ a ∈ TRACKED, a ∈ internalNames) k hm)
  · exact fun hm => h.2.1 ((by decide +kernel : ∀ a ∈ UNTRACKED, a ∈ internalNames) k hm)
  · exact fun hm => h.2.1 ((by decide +kernel : ∀ a ∈ [A_CACHED], a ∈ internalNames) k hm)

theorem mem_local {prot : List Str} {muted : Bool} {n : Dict Str Val} {k : Str} :
    k ∈ Names.localAttrNames prot (if muted then [] else [keys n]) ↔ muted = false ∧ k ∈ keys n ∧ k ∉ prot ∧ AttrName k := by
  rw [mem_localAttrNames, Attrs.attrName_iff]
  cases muted <;> simp

theorem get?_signNode (prot : List Str) (muted : Bool) (real : Option Str) (path : Str) (n : Dict Str Val) (x : Str) :
    get? x (signNode prot muted real path n) =
      if x ∈ (Names.localAttrNames prot (if muted then [] else [keys n])).map (· ++ M_SOURCE) then some (.src real path) else get? x n := by
  unfold signNode
  have := get?_foldl_set (fun _ : Str => Val.src real path)
    ((Names.localAttrNames prot (if muted then [] else [keys n])).map (· ++ M_SOURCE)) n x
  rw [List.foldl_map] at this
  refine this.trans ?_
  by_cases h : x ∈ (Names.localAttrNames prot (if muted then [] else [keys n])).map (· ++ M_SOURCE)
  · rw [if_pos h, if_pos h]
  · rw [if_neg h, if_neg h]

theorem not_source {k x : Str} (h : AttrName k) : k ≠ x ++ M_SOURCE := by
  intro e
  exact h (x ++ "_source".toList) (by rw [e, List.append_assoc]; rfl)

theorem look_source (n : Dict Str Val) (k : Str) : look n k .source = get? (k ++ M_SOURCE) n := rfl

theorem look_value (n : Dict Str Val) (k : Str) : look n k .value = get? k n := by
  unfold look Field.suffix
  rw [List.append_nil]

theorem sign_value (prot : List Str) (muted : Bool) (real : Option Str) (path : Str) (n : Dict Str Val) {k : Str} (h : AttrName k) :
    look (signNode prot muted real path n) k .value = look n k .value := by
  rw [look_value, look_value, get?_signNode, if_neg]
  intro hm
  obtain ⟨x, -, e⟩ := List.mem_map.1 hm
  exact not_source h e.symm

/-- Reading an attribute and its source along the same nodes. -/
theorem stack_signed {b : List Str} {k : Str} (hk : UserName b k) (ha : AttrName k) (p : Str) :
    ∀ (L : List (Option Str × Comp.LayerNodes)), Signed b L →
      (∀ v, (stack (L.map Prod.snd) p).findSome? (get? k) = some v → ∃ l ∈ L, ∃ m, get? p l.2 = some m ∧ get? k m = some v ∧
        (stack (L.map Prod.snd) p).findSome? (get? (k ++ M_SOURCE)) = some (.src l.1 p)) ∧
      ((stack (L.map Prod.snd) p).findSome? (get? k) = none →
        (stack (L.map Prod.snd) p).findSome? (get? (k ++ M_SOURCE)) = none)
  | [], _ => ⟨fun v h => (nomatch h), fun _ => rfl⟩
  | l :: L, hs => by
    obtain ⟨i1, i2⟩ := stack_signed hk ha p L (fun x hx => hs x (List.mem_cons_of_mem _ hx))
    unfold stack at i1 i2 ⊢
    rw [List.map_cons, List.filterMap_cons]
    cases hg : get? p l.2 with
    | none =>
      refine ⟨fun v h => ?_, i2⟩
      obtain ⟨l', h1, m, h2, h3, h4⟩ := i1 v h
      exact ⟨l', List.mem_cons_of_mem _ h1, m, h2, h3, h4⟩
    | some m =>
      have h0 := hs l List.mem_cons_self p m (mem_of_get? hg) k hk ha
      rw [look_source, look_value] at h0
      simp only [List.findSome?_cons]
      cases hv : get? k m with
      | none =>
        rw [hv] at h0
        rw [h0]
        refine ⟨fun v h => ?_, i2⟩
        obtain ⟨l', h1, m, h2, h3, h4⟩ := i1 v h
        exact ⟨l', List.mem_cons_of_mem _ h1, m, h2, h3, h4⟩
      | some w =>
        rw [hv] at h0
        rw [h0]
        refine ⟨fun v h => ?_, fun h => (nomatch h)⟩
        exact ⟨l, List.mem_cons_self, m, hg, by rw [hv]; exact h, rfl⟩

theorem first_signed {b : List Str} {k : Str} (hk : UserName b k) (ha : AttrName k) {L : List (Option Str × Comp.LayerNodes)}
    (hs : Signed b L) : ∀ paths : List (List Str),
      (∀ v, firstSaid (L.map Prod.snd) paths k = some v → ∃ q ∈ paths, ∃ l ∈ L, ∃ m, get? (render q) l.2 = some m ∧ get? k m = some v ∧
        firstSaid (L.map Prod.snd) paths (k ++ M_SOURCE) = some (.src l.1 (render q))) ∧
      (firstSaid (L.map Prod.snd) paths k = none → firstSaid (L.map Prod.snd) paths (k ++ M_SOURCE) = none)
  | [] => ⟨fun v h => (nomatch h), fun _ => rfl⟩
  | q :: paths => by
    obtain ⟨i1, i2⟩ := first_signed hk ha hs paths
    obtain ⟨s1, s2⟩ := stack_signed hk ha (render q) L hs
    unfold firstSaid at i1 i2 ⊢
    simp only [List.findSome?_cons]
    cases hv : (stack (L.map Prod.snd) (render q)).findSome? (get? k) with
    | none =>
      rw [s2 hv]
      refine ⟨fun v h => ?_, i2⟩
      obtain ⟨q', h1, h2⟩ := i1 v h
      exact ⟨q', List.mem_cons_of_mem _ h1, h2⟩
    | some w =>
      obtain ⟨l, h1, m, h2, h3, h4⟩ := s1 w hv
      rw [h4]
      refine ⟨fun v h => ?_, fun h => (nomatch h)⟩
      exact ⟨q, List.mem_cons_self, l, h1, m, h2, by rw [h3]; exact h, rfl⟩

theorem orphan_set {n : Dict Str Val} (h : NoOrphan n) {a : Str} (ha : AttrName a) (f : Field) (v : Val)
    (hf : f = .value ∨ (look n a .value).isSome) : NoOrphan (Dict.set (a ++ f.suffix) v n) := by
  intro k hk
  rw [Attrs.look_set f .source v ha hk, Attrs.look_set f .value v ha hk]
  by_cases h1 : k = a ∧ Field.value = f
  · rw [if_pos h1]; intro _; rfl
  · rw [if_neg h1]
    by_cases h2 : k = a ∧ Field.source = f
    · rw [if_pos h2]
      intro _
      obtain ⟨rfl, rfl⟩ := h2
      exact hf.resolve_left (by decide)
    · rw [if_neg h2]
      exact h k hk

theorem orphan_value {n : Dict Str Val} (h : NoOrphan n) {a : Str} (ha : AttrName a) (v : Val) : NoOrphan (Dict.set a v n) := by
  have := orphan_set h ha .value v (.inl rfl)
  rwa [show a ++ Field.value.suffix = a from List.append_nil a] at this

theorem value_set {n : Dict Str Val} {a x : Str} {v : Val} (h : (get? a n).isSome) : (get? a (Dict.set x v n)).isSome := by
  rw [get?_set]
  split
  · rfl
  · exact h

theorem orphan_loadSub {a : Str} (ha : AttrName a) : ∀ (l : List (Str × Val)) (n : Dict Str Val), NoOrphan n → (get? a n).isSome →
    NoOrphan (loadSub a l n)
  | [], _, h, _ => h
  | (k, v) :: rest, n, h, hv => by
    unfold loadSub
    split
    · exact orphan_loadSub ha rest _ (orphan_value h ha v) (by rw [get?_set, if_pos rfl]; rfl)
    · dsimp only
      split
      · rename_i hm
        obtain ⟨f, hf, rfl⟩ := Attrs.meta_suffix.1 hm
        have e := Attrs.meta_key hf
        unfold Attrs.metaName at e
        rw [e]
        exact orphan_loadSub ha rest _ (orphan_set h ha f v (.inr (by rw [look_value]; exact hv))) (value_set hv)
      · exact orphan_loadSub ha rest n h hv

theorem orphan_loadAttrs (src : Val) : ∀ (l : List (Str × Val)) (n r : Dict Str Val), (∀ a ∈ l.map Prod.fst, AttrName a) → NoOrphan n →
    loadAttrs src l n = some r → NoOrphan r
  | [], n, r, _, h, e => by cases e; exact h
  | (a, v) :: rest, n, r, hl, h, e => by
    have ha : AttrName a := hl a (by simp)
    cases v <;> simp only [loadAttrs] at e <;> try cases e
    refine orphan_loadAttrs src rest _ r (fun x hx => hl x (by simp at hx ⊢; exact .inr hx)) ?_ e
    refine orphan_loadSub ha _ _ (orphan_set (orphan_value h ha _) ha .source _ (.inr ?_)) (value_set ?_)
    · rw [look_value, get?_set, if_pos rfl]; rfl
    · rw [get?_set, if_pos rfl]; rfl

theorem attrName_all : ∀ a ∈ ALL, AttrName a := by
  intro a ha
  rw [Attrs.attrName_iff]
  revert a
  decide +kernel

theorem orphan_fold (f : Str → Val) : ∀ (l : List Str) (n : Dict Str Val), (∀ a ∈ l, AttrName a) → NoOrphan n →
    NoOrphan (l.foldl (fun n a => Dict.set a (f a) n) n)
  | [], _, _, h => h
  | a :: l, n, hl, h => by
    rw [List.foldl_cons]
    exact orphan_fold f l _ (fun x hx => hl x (List.mem_cons_of_mem _ hx)) (orphan_value h (hl a List.mem_cons_self) _)

theorem orphan_sources (v : Val) : ∀ (l : List Str) (n : Dict Str Val), (∀ a ∈ l, AttrName a ∧ (get? a n).isSome) → NoOrphan n →
    NoOrphan (l.foldl (fun n a => Dict.set (a ++ M_SOURCE) v n) n)
  | [], _, _, h => h
  | a :: l, n, hl, h => by
    rw [List.foldl_cons]
    refine orphan_sources v l _ (fun x hx => ?_) ?_
    · obtain ⟨h1, h2⟩ := hl x (List.mem_cons_of_mem _ hx)
      exact ⟨h1, value_set h2⟩
    · exact orphan_set h (hl a List.mem_cons_self).1 .source v (.inr (by rw [look_value]; exact (hl a List.mem_cons_self).2))

/-- `m` does not overlap itself. -/
theorem meta_border : ∀ m ∈ METAS, ∀ i ∈ List.range m.length, i ≠ 0 → ¬ m.drop i <+: m := by decide +kernel

theorem before_append {m : Str} (hm : m ∈ METAS) : ∀ k : Str, ¬ m <:+: k → before m (k ++ m) = k
  | [], _ => by
    have : ∀ m ∈ METAS, before m ([] ++ m) = [] := by decide +kernel
    exact this m hm
  | x :: k, h => by
    rw [List.cons_append, before, if_neg, before_append hm k (fun hi => h (hi.trans (List.suffix_cons x k).isInfix))]
    intro hp
    rw [List.isPrefixOf_iff_prefix] at hp
    by_cases hl : m.length ≤ (x :: k).length
    · have : m <+: x :: k := by
        rw [show x :: (k ++ m) = (x :: k) ++ m from rfl] at hp
        exact List.prefix_of_prefix_length_le hp (List.prefix_append _ _) hl
      exact h this.isInfix
    · have hlt : (x :: k).length < m.length := by omega
      refine meta_border m hm (x :: k).length (List.mem_range.2 hlt) (by simp) ?_
      have h1 : x :: k <+: m := List.prefix_of_prefix_length_le (l₃ := (x :: k) ++ m) (List.prefix_append _ _) hp (by omega)
      obtain ⟨w, hw⟩ := h1
      obtain ⟨w', hw'⟩ := hp
      rw [← hw, List.drop_left, hw]
      rw [← hw, List.append_assoc] at hw'
      have : w ++ w' = m := List.append_cancel_left (as := x :: k) (by rw [hw']; rw [hw]; rfl)
      exact ⟨w', this⟩

theorem find_meta {m : Str} (hm : m ∈ METAS) (k : Str) : METAS.find? (fun x => Py.endsWith (k ++ m) x) = some m := by
  have hself : Py.endsWith (k ++ m) m = true := by
    unfold Py.endsWith
    rw [List.isSuffixOf_iff_suffix]
    exact List.suffix_append _ _
  have hother : ∀ x ∈ METAS, x ≠ m → Py.endsWith (k ++ m) x = false := by
    intro x hx hne
    rw [← Bool.not_eq_true]
    unfold Py.endsWith
    rw [List.isSuffixOf_iff_suffix]
    intro hs
    have hap : ∀ x ∈ METAS, ∀ y ∈ METAS, x ≠ y → ¬ x <:+ y := by decide +kernel
    by_cases hl : x.length ≤ m.length
    · exact hap x hx m hm hne (List.suffix_of_suffix_length_le hs (List.suffix_append _ _) hl)
    · exact hap m hm x hx (Ne.symm hne) (List.suffix_of_suffix_length_le (List.suffix_append _ _) hs (by omega))
  have e : METAS = [M_COMMENT, M_TYPE, M_SOURCE] := rfl
  have hm' := hm
  rw [e] at hm'
  simp only [List.mem_cons, List.not_mem_nil, or_false] at hm'
  rw [e]
  simp only [List.find?_cons]
  rcases hm' with rfl | rfl | rfl
  · rw [hself]
  · rw [hother M_COMMENT (by decide +kernel) (by decide +kernel), hself]
  · rw [hother M_COMMENT (by decide +kernel) (by decide +kernel), hother M_TYPE (by decide +kernel) (by decide +kernel), hself]

theorem baseAttr_self {k : Str} (h : AttrName k) : baseAttr k = k := by
  unfold baseAttr
  have : METAS.find? (fun m => Py.endsWith k m) = none := by
    rw [List.find?_eq_none]
    intro m hm hs
    unfold Py.endsWith at hs
    rw [List.isSuffixOf_iff_suffix] at hs
    have : ∀ m ∈ METAS, "__nxt".toList <:+ m := by decide +kernel
    obtain ⟨s, e⟩ := (this m hm).trans hs
    exact h s e.symm
  rw [this]

theorem baseAttr_meta {k m : Str} (hm : m ∈ METAS) (h : ¬ m <:+: k) : baseAttr (k ++ m) = k := by
  unfold baseAttr
  rw [find_meta hm]
  exact before_append hm k h

/-- Each layer of a stage refreshed. -/
def signAll (b : List Str) (L : List (Option Str × Comp.LayerNodes)) : List (Option Str × Comp.LayerNodes) :=
  L.map (fun l => (l.1, refresh (Rt.protectedNames b) false l.1 l.2))

theorem get?_refresh (prot : List Str) (muted : Bool) (real : Option Str) (p : Str) : ∀ nodes : Comp.LayerNodes,
    get? p (refresh prot muted real nodes) = (get? p nodes).map (signNode prot muted real p)
  | [] => rfl
  | (q, n) :: nodes => by
    have ih := get?_refresh prot muted real p nodes
    unfold refresh at ih ⊢
    rw [List.map_cons, get?, get?]
    by_cases h : q = p
    · subst h; simp
    · rw [if_neg h, if_neg h]; exact ih

theorem keys_refresh (prot : List Str) (muted : Bool) (real : Option Str) (nodes : Comp.LayerNodes) :
    keys (refresh prot muted real nodes) = keys nodes := by
  unfold refresh keys
  rw [List.map_map]
  rfl

theorem get?_sign_internal (prot : List Str) (muted : Bool) (real : Option Str) (p : Str) (n : Dict Str Val) {a : Str}
    (ha : AttrName a) : get? a (signNode prot muted real p n) = get? a n := by
  have := sign_value prot muted real p n ha
  rwa [look_value, look_value] at this

theorem mem_signAll {b : List Str} {L : List (Option Str × Comp.LayerNodes)} {l : Comp.LayerNodes} (hl : l ∈ (signAll b L).map Prod.snd) :
    ∃ e ∈ L, l = refresh (Rt.protectedNames b) false e.1 e.2 := by
  obtain ⟨x, h1, rfl⟩ := List.mem_map.1 hl
  obtain ⟨e, h2, rfl⟩ := List.mem_map.1 h1
  exact ⟨e, h2, rfl⟩

theorem signAll_signed {b : List Str} {L : List (Option Str × Comp.LayerNodes)}
    (h : ∀ l ∈ L, Signed b [(l.1, refresh (Rt.protectedNames b) false l.1 l.2)]) : Signed b (signAll b L) := by
  intro l hl
  obtain ⟨e, h1, rfl⟩ := List.mem_map.1 hl
  exact h e h1 _ (List.mem_singleton.2 rfl)

theorem stack_signAll (b : List Str) (p : Str) : ∀ L : List (Option Str × Comp.LayerNodes), ∃ f : Nat → Dict Str Val → Dict Str Val,
    (∀ i n a, AttrName a → get? a (f i n) = get? a n) ∧
    stack ((signAll b L).map Prod.snd) p = (stack (L.map Prod.snd) p).mapIdx f
  | [] => ⟨fun _ n => n, fun _ _ _ _ => rfl, rfl⟩
  | l :: L => by
    obtain ⟨f, h1, h2⟩ := stack_signAll b p L
    unfold signAll stack at h2 ⊢
    simp only [List.map_cons, List.filterMap_cons, get?_refresh]
    cases hg : get? p l.2 with
    | none => exact ⟨f, h1, h2⟩
    | some n =>
      refine ⟨fun i m => match i with | 0 => signNode (Rt.protectedNames b) false l.1 p m | i + 1 => f i m, ?_, ?_⟩
      · intro i m a ha
        cases i with
        | zero => exact get?_sign_internal _ _ _ _ _ ha
        | succ i => exact h1 i m a ha
      · simp only [Option.map_some, List.mapIdx_cons]
        rw [h2]

theorem strongest_mapIdx {a : Str} : ∀ (l : List (Dict Str Val)) (f : Nat → Dict Str Val → Dict Str Val),
    (∀ i n, get? a (f i n) = get? a n) → (strongest (l.mapIdx f) a).bind (get? a) = (strongest l a).bind (get? a)
  | [], _, _ => rfl
  | n :: l, f, h => by
    have ih := strongest_mapIdx l (fun i => f (i + 1)) (fun i => h (i + 1))
    unfold strongest at ih ⊢
    rw [List.mapIdx_cons, List.find?_cons, List.find?_cons]
    have : getAttr (f 0 n) a = getAttr n a := by unfold getAttr; rw [h]
    rw [this]
    cases (getAttr n a).hasOpinion with
    | true => simp only [Option.bind_some]; exact h 0 n
    | false => exact ih

theorem attrName_internal : ∀ a ∈ internalNames, AttrName a := by
  intro a ha
  rw [Attrs.attrName_iff]
  revert a
  decide +kernel

theorem signAll_inst (b : List Str) (L : List (Option Str × Comp.LayerNodes)) :
    instPathOf ((signAll b L).map Prod.snd) = instPathOf (L.map Prod.snd) := by
  funext ns
  obtain ⟨f, h1, h2⟩ := stack_signAll b (render ns) L
  unfold instPathOf
  rw [h2, strongest_mapIdx _ f (fun i n => h1 i n _ (attrName_internal _ (by decide +kernel)))]
  by_cases h : stack (L.map Prod.snd) (render ns) = []
  · rw [h]; rfl
  · rw [if_neg h, if_neg (by intro he; apply h; simpa [List.mapIdx_eq_nil_iff] using he)]

theorem signAll_spec {b : List Str} {L : List (Option Str × Comp.LayerNodes)} (h : SpecNodes (L.map Prod.snd)) :
    SpecNodes ((signAll b L).map Prod.snd) where
  ok := by
    intro l hl
    obtain ⟨e, h1, rfl⟩ := mem_signAll hl
    unfold Dict.Ok
    rw [keys_refresh]
    exact h.ok e.2 (List.mem_map_of_mem h1)
  path := by
    intro l hl p n hm
    obtain ⟨e, h1, rfl⟩ := mem_signAll hl
    obtain ⟨x, h2, h3⟩ := List.mem_map.1 hm
    cases h3
    exact h.path e.2 (List.mem_map_of_mem h1) x.1 x.2 h2
  parent := by
    intro l hl ns n hN hm
    obtain ⟨e, h1, rfl⟩ := mem_signAll hl
    obtain ⟨x, h2, h3⟩ := List.mem_map.1 hm
    rw [Prod.mk.injEq] at h3
    have := h.parent e.2 (List.mem_map_of_mem h1) ns x.2 hN (h3.1 ▸ h2)
    rw [← h3.2, get?_sign_internal _ _ _ _ _ (attrName_internal _ (by decide +kernel))]
    exact this
  keys := by
    intro l hl p n hm a ha
    obtain ⟨e, h1, rfl⟩ := mem_signAll hl
    obtain ⟨x, h2, h3⟩ := List.mem_map.1 hm
    cases h3
    rw [get?_sign_internal _ _ _ _ _ (attrName_internal _ (by revert a; decide +kernel))]
    exact h.keys e.2 (List.mem_map_of_mem h1) x.1 x.2 h2 a ha

theorem signAll_named {b : List Str} {L : List (Option Str × Comp.LayerNodes)} (h : Named (L.map Prod.snd)) :
    Named ((signAll b L).map Prod.snd) := by
  intro l hl p n hm
  obtain ⟨e, h1, rfl⟩ := mem_signAll hl
  obtain ⟨x, h2, h3⟩ := List.mem_map.1 hm
  cases h3
  obtain ⟨s, hs⟩ := h e.2 (List.mem_map_of_mem h1) x.1 x.2 h2
  exact ⟨s, by rw [get?_sign_internal _ _ _ _ _ (attrName_internal _ (by decide +kernel))]; exact hs⟩

end Signing

open Signing

/-- C146: a node made from data has no source without its attribute. -/
theorem C146_made (data : Dict Str Val) (layer : Option Str) (parent : Str) (proxy : Bool) (n user : Dict Str Val)
    (hu : userData data = some user) (ha : ∀ a ∈ keys user, AttrName a) (h : createSpecNode data layer parent proxy = some n) :
    NoOrphan n := by
  unfold createSpecNode at h
  simp only [Option.bind_eq_bind, Option.bind_eq_some_iff, Option.pure_def] at h
  obtain ⟨name, -, user', hu', attrs, hat, order, -, h⟩ := h
  rw [hu] at hu'
  cases hu'
  rw [← Option.some.inj h]
  have hall := attrName_all
  have h0 : NoOrphan (loadInternals data attrs) :=
    orphan_fold _ ALL _ hall (orphan_loadAttrs _ _ _ _ ha (by intro k _ hk; cases hk) hat)
  have hv : ∀ a ∈ ALL, (get? a (loadInternals data attrs)).isSome := by
    intro a hm
    unfold loadInternals
    rw [get?_foldl_set, if_pos hm]
    rfl
  refine orphan_sources _ TRACKED _ (fun a hm => ?_) ?_
  · have : ∀ a ∈ TRACKED, a ∈ ALL := by decide +kernel
    exact ⟨hall a (this a hm), value_set (value_set (value_set (value_set (value_set (hv a (this a hm))))))⟩
  · exact orphan_value (orphan_value (orphan_value (orphan_value (orphan_value h0 (hall _ (by decide +kernel)) _)
      (hall _ (by decide +kernel)) _) (hall _ (by decide +kernel)) _) (hall _ (by decide +kernel)) _) (hall _ (by decide +kernel)) _

/-- C146: after `refresh` on a layer which is not muted every user attribute has the real path of the layer and the path
of its node as its source, whatever was there before. -/
theorem C146_refreshed (b : List Str) (real : Option Str) (nodes : Comp.LayerNodes) (ho : ∀ p n, (p, n) ∈ nodes → NoOrphan n) :
    Signed b [(real, refresh (Rt.protectedNames b) false real nodes)] := by
  intro l hl p n hm k hk ha
  rw [List.mem_singleton.1 hl] at hm ⊢
  obtain ⟨e, h1, h2⟩ := List.mem_map.1 hm
  cases h2
  rw [sign_value _ _ _ _ _ ha, look_source, get?_signNode]
  by_cases hkey : k ∈ keys e.2
  · rw [if_pos (List.mem_map.2 ⟨k, mem_local.2 ⟨rfl, hkey, prot_user hk, ha⟩, rfl⟩), if_pos]
    rw [look_value]
    exact get?_isSome.2 hkey
  · rw [if_neg]
    · have h3 : (look e.2 k .value).isSome = false := by
        rw [look_value, get?_eq_none.2 hkey]; rfl
      rw [h3]
      cases hs : look e.2 k .source with
      | none => exact hs
      | some v =>
        have := ho e.1 e.2 h1 k ha (by rw [hs]; rfl)
        rw [h3] at this
        cases this
    · intro h
      obtain ⟨x, h4, h5⟩ := List.mem_map.1 h
      rw [← List.append_cancel_right h5] at hkey
      exact hkey (mem_local.1 h4).2.1

/-- C146: in a composed stage whose layers are signed, the source of each user attribute of each node names a layer and a
path at which that layer has a node with the very value the composed node has.  A node without the attribute has no source. -/
theorem C146_source (b : List Str) (L : List (Option Str × Comp.LayerNodes)) (h : SpecNodes (L.map Prod.snd))
    (hn : Named (L.map Prod.snd)) (hw : ∀ i, instPathOf (L.map Prod.snd) [] = some (some i) → i = [])
    (C : Separate (instPathOf (L.map Prod.snd))) (hs : Signed b L)
    (same : Str → Str → Bool) (kids : List Str → Str → List Str) (hk : GivesKids kids) (real : Option Str) :
    ∃ n, ∀ fuel ≥ n, ∃ g nodes, Build.compose same kids real fuel (L.map Prod.snd) = some (g, nodes) ∧
      ∀ ns c k, Names ns → get? (render ns) nodes = some c → UserName b k → AttrName k →
        (∀ v, g.attr? c k = some v → ∃ l ∈ L, ∃ q m, get? (render q) l.2 = some m ∧ look m k .value = some v ∧
          attrSource g c k = some (l.1, render q)) ∧
        (g.attr? c k = none → attrSource g c k = some (some [], [])) := by
  obtain ⟨n, hn'⟩ := Building.whole h hn hw C same hk real
  refine ⟨n, fun fuel hf => ?_⟩
  obtain ⟨B, g, h1, W⟩ := hn' fuel hf
  refine ⟨g, (Build.classes B).2, h1, fun ns c k hN hc hk ha => ?_⟩
  obtain ⟨s1, s2⟩ := first_signed hk ha hs (chain (Build.srcOf (instPathOf (L.map Prod.snd))) ns)
  unfold attrSource
  rw [W.value ns c k hN (mem_of_get? hc) (Build.theirs_user hk),
    W.value ns c (k ++ M_SOURCE) hN (mem_of_get? hc) (Build.theirs_meta hk (by decide +kernel))]
  refine ⟨fun v hv => ?_, fun hv => by rw [s2 hv]⟩
  obtain ⟨q, -, l, h2, m, h3, h4, h5⟩ := s1 v hv
  exact ⟨l, h2, q, m, h3, by rw [look_value]; exact h4, by rw [h5]⟩

/-- C146: if no two layers have the same real path, a source can be followed: `lookup_layer` gives the layer, which has a node
at the path, which has the value. -/
theorem C146_followed (b : List Str) (L : List (Option Str × Comp.LayerNodes)) (h : SpecNodes (L.map Prod.snd))
    (hn : Named (L.map Prod.snd)) (hw : ∀ i, instPathOf (L.map Prod.snd) [] = some (some i) → i = [])
    (C : Separate (instPathOf (L.map Prod.snd))) (hs : Signed b L) (hd : (L.map Prod.fst).Nodup)
    (same : Str → Str → Bool) (kids : List Str → Str → List Str) (hk : GivesKids kids) (real : Option Str) :
    ∃ n, ∀ fuel ≥ n, ∃ g nodes, Build.compose same kids real fuel (L.map Prod.snd) = some (g, nodes) ∧
      ∀ ns c k v, Names ns → get? (render ns) nodes = some c → UserName b k → AttrName k → g.attr? c k = some v →
        ∃ l p layer m, attrSource g c k = some (l, p) ∧ lookupLayer L l = some layer ∧ get? p layer = some m ∧
          look m k .value = some v := by
  obtain ⟨n, hn'⟩ := C146_source b L h hn hw C hs same kids hk real
  refine ⟨n, fun fuel hf => ?_⟩
  obtain ⟨g, nodes, h1, h2⟩ := hn' fuel hf
  refine ⟨g, nodes, h1, fun ns c k v hN hc hk ha hv => ?_⟩
  obtain ⟨l, h3, q, m, h4, h5, h6⟩ := (h2 ns c k hN hc hk ha).1 v hv
  refine ⟨l.1, render q, l.2, m, h6, ?_, h4, h5⟩
  unfold lookupLayer
  have : L.find? (fun x => x.1 = l.1) = some l := by
    clear h1 h2 hn' hs hn h hw C
    induction L with
    | nil => cases h3
    | cons x L ih =>
      rw [List.map_cons, List.nodup_cons] at hd
      rw [List.find?_cons]
      rcases List.mem_cons.1 h3 with rfl | h3
      · simp
      · have : x.1 ≠ l.1 := fun e => hd.1 (e ▸ List.mem_map_of_mem h3)
        simp only [this, decide_false]
        exact ih hd.2 h3
  rw [this]
  rfl

/-- C146: the data of an attribute are its value and what there is of its comment, type and source, sorted by name; an
attribute which the node has not has no data. -/
theorem C146_data (g : Classes) (c : Nat) (k : Str) (h : AttrName k) :
    (g.attr? c k = none → attrData g c k = []) ∧
    ∀ v, g.attr? c k = some v → (∀ f : Field, get? f.key (attrData g c k) = g.attr? c (k ++ f.suffix)) ∧
      (keys (attrData g c k)).Sublist ["comment".toList, "source".toList, "type".toList, "value".toList] := by
  unfold attrData
  rw [baseAttr_self h]
  refine ⟨fun hv => by rw [hv], fun v hv => ?_⟩
  rw [hv]
  unfold metaEntry
  rw [show g.attr? c (k ++ M_COMMENT) = g.attr? c (k ++ Field.comment.suffix) from rfl,
    show g.attr? c (k ++ M_SOURCE) = g.attr? c (k ++ Field.source.suffix) from rfl,
    show g.attr? c (k ++ M_TYPE) = g.attr? c (k ++ Field.type.suffix) from rfl]
  have hval : g.attr? c (k ++ Field.value.suffix) = some v := by
    rw [show k ++ Field.value.suffix = k from List.append_nil k]; exact hv
  refine ⟨fun f => ?_, ?_⟩
  · cases f
    · rw [hval]
      generalize g.attr? c (k ++ Field.comment.suffix) = x
      generalize g.attr? c (k ++ Field.source.suffix) = y
      generalize g.attr? c (k ++ Field.type.suffix) = z
      cases x <;> cases y <;> cases z <;> rfl
    all_goals
      generalize g.attr? c (k ++ Field.comment.suffix) = x
      generalize g.attr? c (k ++ Field.source.suffix) = y
      generalize g.attr? c (k ++ Field.type.suffix) = z
      cases x <;> cases y <;> cases z <;> rfl
  · generalize g.attr? c (k ++ Field.comment.suffix) = x
    generalize g.attr? c (k ++ Field.source.suffix) = y
    generalize g.attr? c (k ++ Field.type.suffix) = z
    cases x <;> cases y <;> cases z <;> simp only [keys, List.map_append, List.map_cons, List.map_nil] <;> decide +kernel

/-- C146: asked for the comment, type or source of an attribute, the data are those of the attribute.  Missing: attributes in
whose name such an ending occurs (`C146_name_violation`). -/
theorem C146_meta_partial (g : Classes) (c : Nat) (k : Str) (h : AttrName k) (f : Field) (hf : f ≠ .value)
    (hk : ¬ f.suffix <:+: k) : attrData g c (k ++ f.suffix) = attrData g c k := by
  have hm : f.suffix ∈ METAS := by
    cases f
    · exact absurd rfl hf
    all_goals decide +kernel
  unfold attrData
  rw [baseAttr_meta hm hk, baseAttr_self h]

/-! ## Concrete stages -/

/-- The stage of C143 with nodes below an instance, its layers saved as `/s.nxt` and `/w.nxt`. -/
def exSignedStage : List (Option Str × Comp.LayerNodes) :=
  signAll [] (exLeafLayers.zipWith (fun l p => (some p, l)) ["/s.nxt".toList, "/w.nxt".toList])

theorem exSigned_unsigned : (exLeafLayers.zipWith (fun l p => (some p, l)) ["/s.nxt".toList, "/w.nxt".toList]).map Prod.snd = exLeafLayers := rfl

theorem exSigned_orphan {p : Str} {n : Dict Str Val} {l : Comp.LayerNodes} (hl : l ∈ exLeafLayers) (hm : (p, n) ∈ l) : NoOrphan n := by
  have hall : ∀ l ∈ exLeafLayers, ∀ e ∈ l, ∀ a ∈ keys e.2, Py.endsWith a "__nxt".toList = false := by decide +kernel
  intro k _ hk
  have := get?_isSome.1 hk
  exact absurd (List.append_assoc k "_source".toList "__nxt".toList).symm (Attrs.attrName_iff.2 (hall l hl (p, n) hm _ this) _)

theorem exSigned_signed : Signed [] exSignedStage := by
  refine signAll_signed (fun l hl => C146_refreshed [] l.1 l.2 (fun p n hm => exSigned_orphan (l := l.2) ?_ hm))
  rw [← exSigned_unsigned]
  exact List.mem_map_of_mem hl

/-- It meets the hypotheses of C146. -/
example := C146_followed [] exSignedStage (signAll_spec (by rw [exSigned_unsigned]; exact exLeafLayers_spec))
  (signAll_named (by rw [exSigned_unsigned]; exact exSpecLayers_named))
  (by unfold exSignedStage; rw [signAll_inst, exSigned_unsigned]; exact exLeafLayers_world)
  (by unfold exSignedStage; rw [signAll_inst, exSigned_unsigned]; exact exLeafLayers_separate) exSigned_signed (by decide +kernel)
  (fun a b => a == b) Proxies.kidPaths C79_scan none

/-- What is read of a source: the file and path it names, and what stands there. -/
structure ExSourceRead where
  real : Option Str
  path : Str
  found : Bool
  text : Option Str
  deriving DecidableEq

/-- Read sources of a composed stage, and whether following them leads to a node with the attribute. -/
def exSourceRead (L : List (Option Str × Comp.LayerNodes)) (p : Str) (ks : List Str) :
    Option (List (Option ExSourceRead)) :=
  match Build.compose (fun a b => a == b) Proxies.kidPaths none 9 (L.map Prod.snd) with
  | some (g, nodes) => (get? p nodes).map (fun c => ks.map (fun k => (attrSource g c k).map (fun s =>
      let n := (lookupLayer L s.1).bind (get? s.2)
      ⟨s.1, s.2, n.isSome, n.bind (fun n => asText (getAttr n k))⟩)))
  | none => none

/-- Four attributes of `/n/b`: its own, that of what it overrides, that of the source of the instance above it, and that of
the instance; and one it has not. -/
example : exSourceRead exSignedStage "/n/b".toList [['k'], ['i'], ['j'], ['u'], ['z']] =
    some [some ⟨some "/s.nxt".toList, "/n/b".toList, true, some "over".toList⟩,
      some ⟨some "/w.nxt".toList, "/r/b".toList, true, some "b".toList⟩,
      some ⟨some "/w.nxt".toList, "/r".toList, true, some "r".toList⟩,
      some ⟨some "/w.nxt".toList, "/n".toList, true, some "n".toList⟩, some ⟨some [], [], false, none⟩] := by decide +kernel

/-- A layer with one node, which has `x`. -/
def exSourceLayer (real : Str) : Comp.LayerNodes :=
  refresh (Rt.protectedNames []) false (some real) (exSpecLayers [[([['a']], .none, .none, [(['x'], .str "v".toList)])]]).flatten

/-- C146, violated: after a layer was saved under another path (`propegate_real_path`) the sources of its attributes name the
old file, and `lookup_layer` finds no layer.  Refreshed, they are right again. -/
theorem C146_saved_violation :
    exSourceRead [(some "/new.nxt".toList, Disk.propagate "/new.nxt".toList (exSourceLayer "/old.nxt".toList))] "/a".toList [['x']] =
      some [some ⟨some "/old.nxt".toList, "/a".toList, false, none⟩] ∧
    exSourceRead [(some "/new.nxt".toList, refresh (Rt.protectedNames []) false (some "/new.nxt".toList)
        (Disk.propagate "/new.nxt".toList (exSourceLayer "/old.nxt".toList)))] "/a".toList [['x']] =
      some [some ⟨some "/new.nxt".toList, "/a".toList, true, some "v".toList⟩] :=
  ⟨by decide +kernel, by decide +kernel⟩

/-- C146, violated: on a muted layer `refresh` leaves all sources as they are. -/
theorem C146_muted_violation (prot : List Str) (real : Option Str) (nodes : Comp.LayerNodes) :
    refresh prot true real nodes = nodes := by
  unfold refresh
  conv => rhs; rw [← List.map_id nodes]
  exact List.map_congr_left (fun e _ => rfl)

/-- So when `/a` is made `/b` there, its attributes keep a source at which there is no node. -/
example :
    let moved : Comp.LayerNodes := (exSourceLayer "/m.nxt".toList).map (fun e => (render [['b']], set A_NAME (.str ['b']) e.2))
    exSourceRead [(some "/m.nxt".toList, refresh (Rt.protectedNames []) true (some "/m.nxt".toList) moved)] "/b".toList [['x']] =
      some [some ⟨some "/m.nxt".toList, "/a".toList, false, none⟩] ∧
    exSourceRead [(some "/m.nxt".toList, refresh (Rt.protectedNames []) false (some "/m.nxt".toList) moved)] "/b".toList [['x']] =
      some [some ⟨some "/m.nxt".toList, "/b".toList, true, some "v".toList⟩] :=
  ⟨by decide +kernel, by decide +kernel⟩

/-- C146, violated: with one file in two layers of a stage a source can be followed to the wrong one. -/
theorem C146_twice_violation :
    exSourceRead [(some "/f.nxt".toList, []), (some "/f.nxt".toList, exSourceLayer "/f.nxt".toList)] "/a".toList [['x']] =
      some [some ⟨some "/f.nxt".toList, "/a".toList, false, none⟩] := by decide +kernel

/-- A strong and a weak layer with `/a`; the weak one gives `x` a comment. -/
def exCommentStage : List (Option Str × Comp.LayerNodes) :=
  signAll [] [(some "/s.nxt".toList, (exSpecLayers [[([['a']], .none, .none, [(['x'], .str "strong".toList)])]]).flatten),
    (some "/w.nxt".toList, (exSpecLayers [[([['a']], .none, .none,
      [(['x'], .str "weak".toList), ("x_comment__nxt".toList, .str "on weak".toList)])]]).flatten)]

/-- What is read of an attribute. -/
structure ExCommentRead where
  value : Option Str
  source : Option (Option Str × Str)
  comment : Option Str
  data : List Str
  deriving DecidableEq

/-- C146, violated: the comment shown for an attribute need not be from where its value and its source are. -/
theorem C146_comment_violation :
    (match Build.compose (fun a b => a == b) Proxies.kidPaths none 9 (exCommentStage.map Prod.snd) with
      | some (g, nodes) => (get? "/a".toList nodes).map (fun c => (⟨asText (g.attr c ['x']), attrSource g c ['x'],
          asText (attrComment g c ['x']), (attrData g c ['x']).map Prod.fst⟩ : ExCommentRead))
      | none => none) = some ⟨some "strong".toList, some (some "/s.nxt".toList, "/a".toList), some "on weak".toList,
        ["comment".toList, "source".toList, "value".toList]⟩ := by
  decide +kernel

/-- C146, violated: asked for the type of an attribute in whose name `_type__nxt` occurs, the data are those of another one. -/
theorem C146_name_violation : UserName [] "x_type__nxt2".toList ∧ AttrName "x_type__nxt2".toList ∧
    ∃ (g : Classes) (c : Nat), (attrData g c "x_type__nxt2_type__nxt".toList).map (fun e => asText e.2) = [some "1".toList] ∧
      (attrData g c "x_type__nxt2".toList).map (fun e => asText e.2) = [some "2".toList] := by
  refine ⟨⟨by simp, by decide +kernel, ?_⟩, ?_, Inherit.addNode Inherit.onlyNode
    [("x".toList, .str "1".toList), ("x_type__nxt2".toList, .str "2".toList)] [], 1, by decide +kernel, by decide +kernel⟩
  · intro m hm pre e
    have h := congrArg List.getLast? e
    rw [← List.append_assoc, List.getLast?_append] at h
    have h' : some '2' = some 't' := h
    exact absurd h' (by decide)
  · rw [Attrs.attrName_iff]; decide +kernel

end Nxt.Props
