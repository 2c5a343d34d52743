import Verif.Model.Disk
import Verif.Spec.Disk
import Verif.Lemmas.Dict
import Verif.Lemmas.Py
import Verif.Props.FilePaths
import Verif.Props.LayerData
/-!
# Lemmas about files
-/
namespace Nxt.Disk
open Dict Spec

theorem serialisableList_iff (l : List Val) (ih : ∀ v ∈ l, v.serialisable = false ↔ Unwritable v) :
    Val.serialisableList l = false ↔ ∃ v ∈ l, Unwritable v := by
  induction l with
  | nil => simp [Val.serialisableList]
  | cons v l ihl =>
    rw [Val.serialisableList, Bool.and_eq_false_iff, ih v (by simp),
      ihl (fun w hw => ih w (by simp [hw]))]
    simp

theorem serialisableDict_iff (d : List (Str × Val))
    (ih : ∀ k v, (k, v) ∈ d → (v.serialisable = false ↔ Unwritable v)) :
    Val.serialisableDict d = false ↔ ∃ k v, (k, v) ∈ d ∧ Unwritable v := by
  induction d with
  | nil => simp [Val.serialisableDict]
  | cons e d ihl =>
    obtain ⟨k, v⟩ := e
    rw [Val.serialisableDict, Bool.and_eq_false_iff, ih k v (by simp),
      ihl (fun k w hw => ih k w (by simp [hw]))]
    constructor
    · rintro (h | ⟨k', w, h, hw⟩)
      · exact ⟨k, v, by simp, h⟩
      · exact ⟨k', w, by simp [h], hw⟩
    · rintro ⟨k', w, h, hw⟩
      rcases List.mem_cons.1 h with h | h
      · cases h; exact .inl hw
      · exact .inr ⟨k', w, h, hw⟩

theorem serialisable_iff : (v : Val) → (v.serialisable = false ↔ Unwritable v)
  | .none => by simp only [Val.serialisable]; exact ⟨nofun, nofun⟩
  | .bool _ => by simp only [Val.serialisable]; exact ⟨nofun, nofun⟩
  | .num _ => by simp only [Val.serialisable]; exact ⟨nofun, nofun⟩
  | .str _ => by simp only [Val.serialisable]; exact ⟨nofun, nofun⟩
  | .src _ _ => by simp only [Val.serialisable]; exact ⟨nofun, nofun⟩
  | .other _ _ s => by
    simp only [Val.serialisable]
    constructor
    · rintro rfl; exact .obj _ _
    · intro h; cases h; rfl
  | .list l => by
    rw [Val.serialisable, serialisableList_iff l (fun v _ => serialisable_iff v)]
    constructor
    · rintro ⟨v, h1, h2⟩; exact .item h1 h2
    · intro h; cases h with | item h1 h2 => exact ⟨_, h1, h2⟩
  | .dict d => by
    rw [Val.serialisable, serialisableDict_iff d (fun _ v _ => serialisable_iff v)]
    constructor
    · rintro ⟨k, v, h1, h2⟩; exact .entry h1 h2
    · intro h; cases h with | entry h1 h2 => exact ⟨_, _, h1, h2⟩
termination_by v => sizeOf v
decreasing_by
  all_goals simp_wf
  · have := List.sizeOf_lt_of_mem ‹_›; omega
  · have := List.sizeOf_lt_of_mem ‹(_, _) ∈ d›; simp at this; omega

theorem _root_.Nxt.Spec.Lossless.writable {v : Val} (h : Lossless v) : v.serialisable = true := by
  cases hs : v.serialisable with
  | true => rfl
  | false =>
    exfalso
    have hu := (serialisable_iff v).1 hs
    clear hs
    induction hu with
    | obj => cases h
    | item h1 _ ih => cases h with | list h2 => exact ih (h2 _ h1)
    | entry h1 _ ih => cases h with | dict _ h2 => exact ih (h2 _ _ h1)

theorem writtenList_eq (l : List Val) (h : ∀ v ∈ l, written v = v) : writtenList l = l := by
  induction l with
  | nil => rfl
  | cons v l ih => rw [writtenList, h v (by simp), ih (fun w hw => h w (by simp [hw]))]

theorem writtenDict_eq (d : List (Str × Val)) (h : ∀ k v, (k, v) ∈ d → written v = v) :
    writtenDict d = d := by
  induction d with
  | nil => rfl
  | cons e d ih =>
    obtain ⟨k, v⟩ := e
    rw [writtenDict, h k v (by simp), ih (fun k w hw => h k w (by simp [hw]))]

theorem _root_.Nxt.Spec.Lossless.written {v : Val} (h : Lossless v) : Disk.written v = v := by
  induction h with
  | list _ ih => rw [Disk.written, writtenList_eq _ ih]
  | dict _ _ ih => rw [Disk.written, writtenDict_eq _ ih]
  | _ => rfl

mutual
theorem byteifyItem_eq : (v : Val) → byteifyItem v = v
  | .list l => by rw [byteifyItem, byteifyItems_eq l]
  | .none | .bool _ | .num _ | .str _ | .src _ _ | .other _ _ _ | .dict _ => rfl
theorem byteifyItems_eq : (l : List Val) → byteifyItems l = l
  | [] => rfl
  | v :: l => by rw [byteifyItems, byteifyItem_eq v, byteifyItems_eq l]
end

theorem byteify_aux (d r : Dict Str Val) (h : Ok (r ++ d)) :
    d.foldl (fun r kv => set kv.1 (byteifyItem kv.2) r) r = r ++ d := by
  induction d generalizing r with
  | nil => simp
  | cons e d ih =>
    obtain ⟨k, v⟩ := e
    have hk : k ∉ keys r := by
      intro hk
      have : (keys r ++ k :: keys d).Nodup := by simpa [Ok] using h
      exact (List.nodup_append.1 this).2.2 k hk k (by simp) rfl
    rw [List.foldl_cons, byteifyItem_eq, set_of_not_mem hk, ih _ (by simpa using h)]
    simp

theorem byteify_eq {d : Dict Str Val} (h : Ok d) : byteify d = d := by
  unfold byteify
  rw [byteify_aux d [] (by simpa using h)]
  rfl

theorem decodeList_eq (l : List Val) (h : ∀ v ∈ l, decode v = v) : decodeList l = l := by
  induction l with
  | nil => rfl
  | cons v l ih => rw [decodeList, h v (by simp), ih (fun w hw => h w (by simp [hw]))]

theorem decodeDict_eq (d : List (Str × Val)) (h : ∀ k v, (k, v) ∈ d → decode v = v) :
    decodeDict d = d := by
  induction d with
  | nil => rfl
  | cons e d ih =>
    obtain ⟨k, v⟩ := e
    rw [decodeDict, h k v (by simp), ih (fun k w hw => h k w (by simp [hw]))]

theorem _root_.Nxt.Spec.Lossless.decode {v : Val} (h : Lossless v) : Disk.decode v = v := by
  induction h with
  | list _ ih => rw [Disk.decode, decodeList_eq _ ih]
  | dict ho _ ih => rw [Disk.decode, decodeDict_eq _ ih, byteify_eq ho]
  | _ => rfl

/-! ### File names -/

theorem isBase_unique {p b b' : Str} (h : IsBase p b) (h' : IsBase p b') : b = b' := by
  obtain ⟨h1, h2⟩ := h
  obtain ⟨h3, h4⟩ := h'
  rcases h2 with rfl | ⟨d, rfl⟩
  · rcases h4 with h4 | ⟨d', rfl⟩
    · exact h4
    · exact absurd (by simp) h1
  · rcases h4 with rfl | ⟨d', h4⟩
    · exact absurd (by simp) h3
    · have e1 := Py.rpartition?_char (c := '/') (a := d) h1
      have e2 := Py.rpartition?_char (c := '/') (a := d') h3
      rw [h4, e2] at e1
      exact (Prod.mk.inj (Option.some.inj e1)).2.symm

theorem isBase_append {p b e : Str} (h : IsBase p b) (he : '/' ∉ e) : IsBase (p ++ e) (b ++ e) := by
  refine ⟨by simp [h.1, he], ?_⟩
  rcases h.2 with rfl | ⟨d, rfl⟩
  · exact .inl rfl
  · exact .inr ⟨d, by simp⟩

/-- The extension of a file. -/
theorem splitext_of {p stem b e : Str} (hp : p = stem ++ '.' :: e) (hb : IsBase stem b)
    (hc : ∃ c ∈ b, c ≠ '.') (h1 : '.' ∉ e) (h2 : '/' ∉ e) : splitext p = (stem, '.' :: e) := by
  have hbase : FilePaths.basename p = b ++ '.' :: e := by
    apply isBase_unique (Props.basename_spec p)
    rw [hp]
    exact isBase_append hb (by simp [h2])
  unfold splitext
  rw [hbase, Py.rpartition?_char h1]
  obtain ⟨c, hc1, hc2⟩ := hc
  have : b.any (fun c => c ≠ '.') = true := List.any_eq_true.2 ⟨c, hc1, by simpa using hc2⟩
  simp only [this, if_true]
  rw [hp]
  congr 1
  rw [List.length_append, List.length_cons, Nat.add_sub_cancel, List.take_left]

theorem splitext_graph {p stem : Str} (h : GraphFile p stem) :
    (splitext p).2 ∈ EXTS ∧ (splitext p).1 = stem := by
  obtain ⟨h1, b, hb, hc⟩ := h
  rcases h1 with h1 | h1
  · rw [splitext_of (e := "nxt".toList) h1 hb hc (by decide) (by decide)]
    exact ⟨(by decide : ('.' :: "nxt".toList) ∈ EXTS), rfl⟩
  · rw [splitext_of (e := "nxtb".toList) h1 hb hc (by decide) (by decide)]
    exact ⟨(by decide : ('.' :: "nxtb".toList) ∈ EXTS), rfl⟩

theorem graph_of_splitext {p : Str} (h : (splitext p).2 ∈ EXTS) : ∃ stem, GraphFile p stem := by
  unfold splitext at h
  cases hr : Py.rpartition? ['.'] (FilePaths.basename p) with
  | none => rw [hr] at h; exact absurd h (by decide : ([] : Str) ∉ EXTS)
  | some se =>
    obtain ⟨s, e⟩ := se
    rw [hr] at h
    simp only at h
    split at h
    · rename_i ha
      obtain ⟨h1, h2⟩ := Py.rpartition?_char_some hr
      have hs := Props.basename_spec p
      rw [h1] at hs
      obtain ⟨c, hc, hc'⟩ := List.any_eq_true.1 ha
      have hc2 : c ≠ '.' := by simpa using hc'
      have hns : '/' ∉ s := fun hm => hs.1 (by simp [hm])
      have key : ∃ stem, p = stem ++ '.' :: e ∧ IsBase stem s := by
        rcases hs.2 with h3 | ⟨d, h3⟩
        · exact ⟨s, by simpa using h3, hns, .inl rfl⟩
        · exact ⟨d ++ '/' :: s, by simpa using h3, hns, .inr ⟨d, rfl⟩⟩
      obtain ⟨stem, h4, h5⟩ := key
      refine ⟨stem, ?_, s, h5, c, hc, hc2⟩
      simp only [EXTS, List.mem_cons, List.not_mem_nil, or_false] at h
      rcases h with h | h
      · left; rw [h4, h]
      · right; rw [h4, h]
    · exact absurd h (by decide : ([] : Str) ∉ EXTS)

theorem splitext_iff (p : Str) : (splitext p).2 ∈ EXTS ↔ ∃ stem, GraphFile p stem :=
  ⟨graph_of_splitext, fun ⟨_, h⟩ => (splitext_graph h).1⟩

/-- The base name of a graph file, without extension. -/
theorem splitext_base {p stem b : Str} (h : GraphFile p stem) (hb : IsBase stem b) :
    (splitext (FilePaths.basename p)).1 = b := by
  obtain ⟨h1, b', hb', hc⟩ := h
  obtain rfl := isBase_unique hb hb'
  have hbb : IsBase b b := ⟨hb.1, .inl rfl⟩
  rcases h1 with rfl | rfl
  · rw [isBase_unique (Props.basename_spec _) (isBase_append hb (by decide)),
      splitext_of (p := b ++ ".nxt".toList) (e := "nxt".toList) rfl hbb hc (by decide) (by decide)]
  · rw [isBase_unique (Props.basename_spec _) (isBase_append hb (by decide)),
      splitext_of (p := b ++ ".nxtb".toList) (e := "nxtb".toList) rfl hbb hc (by decide) (by decide)]

/-! ### What is saved of a layer -/

theorem lossless_perm {d e : Dict Str Val} (h : Lossless (.dict d)) (hp : d.Perm e) : Lossless (.dict e) := by
  cases h with
  | dict h1 h2 => exact .dict (ok_perm h1 hp) (fun k v hm => h2 k v (hp.mem_iff.2 hm))

theorem lossless_nil : Lossless (.dict []) := .dict ok_nil (by simp)

theorem lossless_set {d : Dict Str Val} {k : Str} {v : Val} (h : Lossless (.dict d)) (hv : Lossless v) :
    Lossless (.dict (set k v d)) := by
  cases h with
  | dict h1 h2 =>
    refine .dict (ok_set h1 _ _) ?_
    intro k' v' hm
    have hg := get?_of_mem (ok_set h1 _ _) hm
    rw [get?_set] at hg
    split at hg
    · cases hg; exact hv
    · exact h2 _ _ (mem_of_get? hg)

theorem lossless_entry {d t : Dict Str Val} {k : Str} (h : Lossless (.dict d)) {v : Val}
    (hg : get? k d = some v) : Lossless v := by
  cases h with
  | dict h1 h2 => exact h2 _ _ (mem_of_get? hg)

theorem lossless_sort {d : Dict Str Val} (h : Lossless (.dict d)) : Lossless (.dict (sortByKey d)) :=
  lossless_perm h (sortByKey_perm d).symm

/-- The values of a node, with those of its class. -/
theorem lossless_getAttr {n : Dict Str Val}
    (h : ∀ a v, (a, v) ∈ n → (∀ x, a ≠ x ++ "_source__nxt".toList) → Lossless v) {a : Str}
    (ha : ∀ x, a ≠ x ++ "_source__nxt".toList) : Lossless (NodeData.getAttr n a) := by
  unfold NodeData.getAttr
  cases hg : get? a n with
  | some v => exact h a v (mem_of_get? hg) ha
  | none =>
    rw [Option.none_or]
    cases hc : get? a NodeData.NODE_CLASS with
    | none => exact .none
    | some v =>
      have := mem_of_get? hc
      simp only [NodeData.NODE_CLASS, List.mem_cons, List.not_mem_nil, or_false, Prod.mk.injEq] at this
      rcases this with ⟨-, rfl⟩ | ⟨-, rfl⟩ | ⟨-, rfl⟩ | ⟨-, rfl⟩ | ⟨-, rfl⟩
      · exact .str _
      · exact .str _
      · exact .list (by simp)
      · exact .bool _
      · exact .bool _

open NodeData in
theorem lossless_subAttrs {n : Dict Str Val}
    (h : ∀ a v, (a, v) ∈ n → (∀ x, a ≠ x ++ "_source__nxt".toList) → Lossless v) {b : List Str} {k : Str}
    (hk : isUser b k = true) : Lossless (.dict (subAttrs n k)) := by
  have e1 : ∀ x, k ++ M_COMMENT ≠ x ++ "_source__nxt".toList := fun x hx => by
    have := meta_inj (m := M_COMMENT) (m' := M_SOURCE) (by simp [METAS]) (by simp [METAS]) hx
    exact absurd this.2 (by decide +kernel)
  have e2 : ∀ x, k ++ M_TYPE ≠ x ++ "_source__nxt".toList := fun x hx => by
    have := meta_inj (m := M_TYPE) (m' := M_SOURCE) (by simp [METAS]) (by simp [METAS]) hx
    exact absurd this.2 (by decide +kernel)
  have e3 : ∀ x, k ≠ x ++ "_source__nxt".toList := fun x =>
    user_not_meta hk (a := x) (m := M_SOURCE) (by simp [METAS])
  unfold subAttrs
  dsimp only
  apply lossless_sort
  have step : ∀ (c : Bool) (d : Dict Str Val) (k : Str) (v : Val), Lossless (.dict d) → Lossless v →
      Lossless (.dict (if c then set k v d else d)) := by
    intro c d k v h1 h2
    split
    · exact lossless_set h1 h2
    · exact h1
  exact step _ _ _ _ (step _ _ _ _ (step _ _ _ _ lossless_nil (lossless_getAttr h e1)) (lossless_getAttr h e2))
    (lossless_getAttr h e3)

open NodeData Layer in
theorem lossless_saveNode (b : List Str) {n : Dict Str Val}
    (h : ∀ a v, (a, v) ∈ n → (∀ x, a ≠ x ++ "_source__nxt".toList) → Lossless v) :
    Lossless (.dict (saveNode b n)) := by
  have hu : Lossless (.dict (userAttrs b n)) := by
    have : ∀ (l : List Str) (d : Dict Str Val), Lossless (.dict d) → Lossless (.dict
        (l.foldl (fun d k => if isUser b k then set k (.dict (subAttrs n k)) d else d) d)) := by
      intro l
      induction l with
      | nil => exact fun d hd => hd
      | cons k l ih =>
        intro d hd
        rw [List.foldl_cons]
        apply ih
        split
        · rename_i hk; exact lossless_set hd (lossless_subAttrs h hk)
        · exact hd
    exact this _ _ lossless_nil
  have hp : Lossless (.dict (userPart b n)) := by
    unfold userPart
    split
    · exact lossless_nil
    · exact lossless_set lossless_nil (lossless_sort hu)
  have hi : ∀ (l : List Str) (d : Dict Str Val), (∀ a ∈ l, a ∈ SAVED) → Lossless (.dict d) →
      Lossless (.dict (saveInternals n l d)) := by
    intro l
    induction l with
    | nil => exact fun d _ hd => hd
    | cons a l ih =>
      intro d ha hd
      unfold saveInternals
      rw [List.foldl_cons]
      apply ih _ (fun x hx => ha x (by simp [hx]))
      split
      · refine lossless_set hd (lossless_getAttr h fun x => ?_)
        have hall : ∀ a ∈ SAVED, a ∈ ALL := by decide +kernel
        exact internal_not_meta (m := M_SOURCE) (hall a (ha a (by simp))) (by simp [METAS])
      · exact hd
  have hsi := hi (savedAttrs n) (userPart b n) (savedAttrs_sub n) hp
  have hok := ok_saveInternals n (savedAttrs n) (userPart b n) (ok_userPart b n)
  exact lossless_perm hsi (Props.C24_order_node_dict _ hok).1.symm

open LayerData in
theorem lossless_meta {m : Meta} {md : Dict Str Val} (hi : Lossless (.dict m.input))
    (ho : ∀ k, Lossless (.dict (m.own k))) (h : getMetaData m = some md) : Lossless (.dict md) := by
  have ht : ∀ k t, m.table k = some t → Lossless (.dict t) := by
    intro k t h
    unfold Meta.table at h
    split at h
    · cases h; rename_i hg; exact lossless_entry (t := []) hi hg
    · cases h
    · cases h; exact ho k
  have : ∀ (ks : List Str) (r r' : Dict Str Val), Lossless (.dict r) → ks.foldlM (metaStep m) r = some r' →
      Lossless (.dict r') := by
    intro ks
    induction ks with
    | nil => intro r r' hr h; cases h; exact hr
    | cons k ks ih =>
      intro r r' hr h
      rw [List.foldlM_cons] at h
      obtain ⟨q, h1, h2⟩ := Option.bind_eq_some_iff.1 h
      refine ih q r' ?_ h2
      unfold metaStep at h1
      split at h1
      · cases h1
      · rename_i t htk
        cases h1
        split
        · exact hr
        · exact lossless_set hr (lossless_sort (ht k t htk))
  exact this _ _ _ hi h

open LayerData NodeData Layer in
theorem lossless_nodes (b : List Str) (T : Dict Str (Dict Str Val))
    (h : ∀ p n, (p, n) ∈ T → ∀ a v, (a, v) ∈ n → (∀ x, a ≠ x ++ "_source__nxt".toList) → Lossless v) :
    Lossless (.dict (nodesSaveData b T)) := by
  have : ∀ (l : Dict Str (Dict Str Val)) (d : Dict Str Val), (∀ e ∈ l, e ∈ T) → Lossless (.dict d) →
      Lossless (.dict (l.foldl (fun d pn => set pn.1 (.dict (saveNode b pn.2)) d) d)) := by
    intro l
    induction l with
    | nil => exact fun d _ hd => hd
    | cons e l ih =>
      intro d hl hd
      rw [List.foldl_cons]
      exact ih _ (fun x hx => hl x (by simp [hx]))
        (lossless_set hd (lossless_saveNode b (h e.1 e.2 (hl e (by simp)))))
  have hL := this T [] (fun _ h => h) lossless_nil
  unfold nodesSaveData
  cases hL with
  | dict h1 h2 => exact lossless_perm (.dict h1 h2) (Props.C24_order_nodes_dict _ h1).1.symm

open LayerData in
/-- The data saved of a layer of storable values. -/
theorem _root_.Nxt.Spec.Storable.saved {s : LayerState} (h : Storable s) {b : List Str} {ver : Str}
    {data : Dict Str Val} (hd : getSaveData b ver s = some data) : Lossless (.dict data) := by
  unfold getSaveData at hd
  obtain ⟨md, hmd, hd⟩ := Option.map_eq_some_iff.1 hd
  have hm := lossless_meta h.input h.own hmd
  have hn := lossless_nodes b s.nodes h.nodes
  have hraw : Lossless (.dict ((rawSaveData b ver s md).filter (fun kv => !kv.2.isEmptyContainer))) := by
    refine .dict ?_ ?_
    · refine (List.filter_sublist.map Prod.fst).nodup ?_
      simp only [rawSaveData, List.map_cons, List.map_nil]
      decide +kernel
    · intro k v hkv
      have := (List.mem_filter.1 hkv).1
      simp only [rawSaveData, List.mem_cons, List.not_mem_nil, or_false, Prod.mk.injEq] at this
      rcases this with ⟨-, rfl⟩ | ⟨-, rfl⟩ | ⟨-, rfl⟩ | ⟨-, rfl⟩ | ⟨-, rfl⟩ | ⟨-, rfl⟩ | ⟨-, rfl⟩ | ⟨-, rfl⟩ |
        ⟨-, rfl⟩
      · exact .str _
      · exact .str _
      · exact .bool _
      · exact .bool _
      · refine .list ?_
        intro v hv
        obtain ⟨r, -, rfl⟩ := List.mem_map.1 hv
        exact .str _
      · exact lossless_sort h.overs
      · exact h.color
      · exact hm
      · exact hn
  rw [← hd]
  cases hraw with
  | dict h1 h2 => exact lossless_perm (.dict h1 h2) (Props.C24_order_save_dict _ h1).1.symm

end Nxt.Disk
